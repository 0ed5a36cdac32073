import Verif.Props.Square
import Verif.Props.ColumnCycle

/-! Property C281: two like vessels that change places. Without selectivity the passes of the lead-lag loop (lead_lag_class.py:577-593), in which each vessel
is fed with the effluent of the one before until the swap and with raw water from then on, approach the one vessel that feeds itself. -/
set_option autoImplicit false
namespace WTM
open BigOperators Set

section
variable {r p n : ℕ} {m : ColModel} {P : ColParams r p (n + 1)} {jac : Fin r → ℝ} {tH CT Q S : ℝ}

/-- Specification: a vessel that starts from `u0`, is fed with `feed` for a time `S`, then changes places and is fed with `raw` for a time `S`. `y` is its
course as lag vessel and `x` its course as lead vessel, both from time zero. -/
structure Spec.Vessel {z : ℕ} (m : ColModel) (P : ColParams r p z) (tH S : ℝ) (raw feed : ℝ → Fin (p + 1) → ℝ) (u0 : ColState r p z)
    (y x : ℝ → ColState r p z) : Prop where
  start : y 0 = u0
  lag : Spec.Solves colComp (fun t u => m.rhs P tH (feed t) u) 0 S y
  swap : x 0 = y S
  lead : Spec.Solves colComp (fun t u => m.rhs P tH (raw t) u) 0 S x

/-- Specification: vessels of which each is fed, as lag vessel, with the effluent of the one before as lead vessel. -/
structure Spec.Relay {z : ℕ} (m : ColModel) (P : ColParams r p z) (tH S : ℝ) (raw : ℝ → Fin (p + 1) → ℝ) (u0 : ColState r p z)
    (feed : ℕ → ℝ → Fin (p + 1) → ℝ) (y x : ℕ → ℝ → ColState r p z) : Prop where
  vessel : ∀ i, Spec.Vessel m P tH S raw (feed i) u0 (y i) (x i)
  handed : ∀ i, ∀ t ∈ Icc 0 S, ∀ k, feed (i + 1) t k = x i t 0 k (Fin.last z)

theorem solves_within {z : ℕ} {f : ℝ → ColState r p z → ColState r p z} {y : ℝ → ColState r p z} {T T' : ℝ} (hT : T' ≤ T)
    (hy : Spec.Solves colComp f 0 T y) : Spec.Solves colComp f 0 T' y := fun t ht a =>
  (hy t ⟨ht.1, ht.2.trans hT⟩ a).mono (Icc_subset_Icc le_rfl hT)

/-- Energy of the difference of two vessels under one raw water: how much there is at the swap, and how much of it comes out again. -/
theorem vessel_energy (h : Spec.PlainColumn m P jac tH) {G : Fin (n + 1) → Fin (n + 1) → ℝ} (hA : Spec.MovesAll P.Az) (hG : AxialForm P.Az G)
    (hP : PassiveForm P.Az G) (hC : 0 < CT) (hQ : 0 < Q) (hS : 0 < S) : ∃ ρ : ℝ, 0 < ρ ∧ ρ < 1 ∧
    ∀ (raw feed feed' : ℝ → Fin (p + 1) → ℝ) (u0 : ColState r p (n + 1)) (y x y' x' : ℝ → ColState r p (n + 1)),
      Spec.Vessel m P tH S raw feed u0 y x → Spec.Vessel m P tH S raw feed' u0 y' x' → Spec.Totals CT Q u0 →
      (∀ t ∈ Icc 0 S, ∑ i, raw t i = CT) → (∀ t ∈ Icc 0 S, ∑ i, feed t i = CT) → (∀ t ∈ Icc 0 S, ∑ i, feed' t i = CT) →
      ContinuousOn feed (Icc 0 S) → ContinuousOn feed' (Icc 0 S) → ∀ j : Fin p,
        cdot (CT / Q) (3 * (1 - P.EBED) / P.EBED) G P.Wr (diffExc j (x 0) (x' 0)) (diffExc j (x 0) (x' 0)) ≤
          P.v * tH / (P.L * P.EBED) * ∫ t in (0 : ℝ)..S, (feed t j.succ - feed' t j.succ) ^ 2 ∧
        P.v * tH / (P.L * P.EBED) * (∫ t in (0 : ℝ)..S, (x t 0 j.succ (Fin.last (n + 1)) - x' t 0 j.succ (Fin.last (n + 1))) ^ 2) ≤
          ρ * cdot (CT / Q) (3 * (1 - P.EBED) / P.EBED) G P.Wr (diffExc j (x 0) (x' 0)) (diffExc j (x 0) (x' 0)) ∧
        ∀ t ∈ Icc 0 S, cdot (CT / Q) (3 * (1 - P.EBED) / P.EBED) G P.Wr (diffExc j (x t) (x' t)) (diffExc j (x t) (x' t)) ≤
          cdot (CT / Q) (3 * (1 - P.EBED) / P.EBED) G P.Wr (diffExc j (x 0) (x' 0)) (diffExc j (x 0) (x' 0)) := by
  have hkeep := fun j : Fin p => col_keeps (β := plainBeta m P tH (CT / Q) j.succ) (f := tH * P.kL j.succ / P.rb) (κ := P.v * tH / (P.L * P.EBED))
    h.grid hG (plain_consts h hC hQ j).1 (plain_consts h hC hQ j).2.2.2.1
  choose Λ hΛ hk using hkeep
  set L := 1 + ∑ j, Λ j with hL
  have hsum : 0 ≤ ∑ j, Λ j := Finset.sum_nonneg fun j _ => (hΛ j).le
  have hLj : ∀ j, Λ j ≤ L := fun j => by
    have := Finset.single_le_sum (fun j _ => (hΛ j).le) (Finset.mem_univ j)
    linarith
  have hLS : 0 < L * S := mul_pos (by linarith) hS
  refine ⟨1 - Real.exp (-(L * S)), ?_, ?_, fun raw feed feed' u0 y x y' x' hv hv' hu hraw hf hf' hfc hfc' j => ?_⟩
  · have : Real.exp (-(L * S)) < 1 := by rw [Real.exp_lt_one_iff]; linarith
    linarith
  · linarith [Real.exp_pos (-(L * S))]
  · obtain ⟨ha, hβ, hfl, hμ, hκ⟩ := plain_consts h hC hQ j
    have ht : Spec.Totals CT Q (x 0) := by
      rw [hv.swap]
      exact totals_stay_var h hA hC hQ hf hv.lag (by rw [hv.start]; exact hu) S ⟨hS.le, le_rfl⟩
    have ht' : Spec.Totals CT Q (x' 0) := by
      rw [hv'.swap]
      exact totals_stay_var h hA hC hQ hf' hv'.lag (by rw [hv'.start]; exact hu) S ⟨hS.le, le_rfl⟩
    have hd : ∀ T ≤ S, ∀ t ∈ Icc 0 T, HasDerivWithinAt (fun t => diffExc j (x t) (x' t)) (colCL (CT / Q) (plainBeta m P tH (CT / Q) j.succ)
        (tH * P.kL j.succ / P.rb) (3 * (1 - P.EBED) / P.EBED) (P.v * tH / (P.L * P.EBED)) P.Az P.Br P.Wr (diffExc j (x t) (x' t))) (Icc 0 T) t := by
      intro T hT t htT
      have := plain_drive h hA hC hQ j (fun t ht => hraw t ⟨ht.1, ht.2.trans hT⟩) (fun t ht => hraw t ⟨ht.1, ht.2.trans hT⟩)
        (solves_within hT hv.lead) (solves_within hT hv'.lead) ht ht' t htT
      rwa [sub_self, zero_smul, sub_zero] at this
    have hbal : ∀ T, 0 ≤ T → T ≤ S → _ := fun T h0 hT => col_balance h.grid hG hP ha hβ hfl hμ hκ (d := fun _ => 0) h0 continuousOn_const
      (fun t ht => by rw [zero_smul, sub_zero]; exact hd T hT t ht)
    simp only [ne_eq, OfNat.ofNat_ne_zero, not_false_eq_true, zero_pow, intervalIntegral.integral_zero, mul_zero, add_zero] at hbal
    have hint : ∀ T, 0 ≤ T → 0 ≤ P.v * tH / (P.L * P.EBED) * ∫ t in (0 : ℝ)..T, (diffExc j (x t) (x' t) (Fin.last n)).2 ^ 2 := fun T h0 =>
      mul_nonneg hκ.le (intervalIntegral.integral_nonneg h0 fun t _ => sq_nonneg _)
    refine ⟨?_, ?_, fun t htS => ?_⟩
    · have h1 := col_balance h.grid hG hP ha hβ hfl hμ hκ hS.le (d := fun t => feed t j.succ - feed' t j.succ)
        ((continuousOn_pi.1 hfc j.succ).sub (continuousOn_pi.1 hfc' j.succ)) (plain_drive h hA hC hQ j hf hf' hv.lag hv'.lag
          (by rw [hv.start]; exact hu) (by rw [hv'.start]; exact hu))
      have h2 : 0 ≤ P.v * tH / (P.L * P.EBED) * ∫ t in (0 : ℝ)..S, (diffExc j (y t) (y' t) (Fin.last n)).2 ^ 2 :=
        mul_nonneg hκ.le (intervalIntegral.integral_nonneg hS.le fun t _ => sq_nonneg _)
      have h3 : diffExc j (y 0) (y' 0) = 0 := by
        rw [hv.start, hv'.start]
        funext w
        refine Prod.ext (funext fun k => sub_self _) (sub_self _)
      have h4 : cdot (CT / Q) (3 * (1 - P.EBED) / P.EBED) G P.Wr (0 : ColExc r (n + 1)) 0 = 0 := by
        have := cdot_scale (a := CT / Q) (μ := 3 * (1 - P.EBED) / P.EBED) (G := G) (W := P.Wr) 0 0 (0 : ColExc r (n + 1)) 0
        simpa using this
      rw [h3, h4] at h1
      rw [hv.swap, hv'.swap]
      linarith
    · have h1 := hbal S hS.le le_rfl
      have h2 := hk j _ S hS.le (hd S le_rfl)
      have h3 := (cdot_pos h.grid hG ha hμ (diffExc j (x 0) (x' 0))).1
      have h4 : Real.exp (-(L * S)) ≤ Real.exp (-(Λ j * S)) := Real.exp_le_exp.2 (neg_le_neg (mul_le_mul_of_nonneg_right (hLj j) hS.le))
      have h5 := mul_le_mul_of_nonneg_right h4 h3
      have e : (∫ t in (0 : ℝ)..S, (x t 0 j.succ (Fin.last (n + 1)) - x' t 0 j.succ (Fin.last (n + 1))) ^ 2) =
          ∫ t in (0 : ℝ)..S, (diffExc j (x t) (x' t) (Fin.last n)).2 ^ 2 := rfl
      rw [e]
      linarith
    · have h1 := hbal t htS.1 htS.2
      linarith [hint t htS.1]

/-- C281. The pass is a contraction in the mean square: of a difference in what two vessels are fed before the swap, less comes out after it, by a factor of the
column and the interval alone. -/
theorem c281_contracts (h : Spec.PlainColumn m P jac tH) {leg : Fin n → ℝ} (hleg : Spec.ShJacobiRoots n 1 1 leg)
    (hz : P.Az = aMat (axialNodes leg)) (hC : 0 < CT) (hQ : 0 < Q) (hS : 0 < S) : ∃ ρ : ℝ, 0 < ρ ∧ ρ < 1 ∧
    ∀ (raw feed feed' : ℝ → Fin (p + 1) → ℝ) (u0 : ColState r p (n + 1)) (y x y' x' : ℝ → ColState r p (n + 1)),
      Spec.Vessel m P tH S raw feed u0 y x → Spec.Vessel m P tH S raw feed' u0 y' x' → Spec.Totals CT Q u0 →
      (∀ t ∈ Icc 0 S, ∑ i, raw t i = CT) → (∀ t ∈ Icc 0 S, ∑ i, feed t i = CT) → (∀ t ∈ Icc 0 S, ∑ i, feed' t i = CT) →
      ContinuousOn feed (Icc 0 S) → ContinuousOn feed' (Icc 0 S) → ∀ j : Fin p,
        ∫ t in (0 : ℝ)..S, (x t 0 j.succ (Fin.last (n + 1)) - x' t 0 j.succ (Fin.last (n + 1))) ^ 2 ≤
          ρ * ∫ t in (0 : ℝ)..S, (feed t j.succ - feed' t j.succ) ^ 2 := by
  have hA : Spec.MovesAll P.Az := axial_moves (by rw [hz]; exact .single hleg)
  obtain ⟨G, hG, hP⟩ := passive_legendre hleg
  rw [← hz] at hG hP
  obtain ⟨ρ, h0, h1, hρ⟩ := vessel_energy h hA hG hP hC hQ hS
  refine ⟨ρ, h0, h1, fun raw feed feed' u0 y x y' x' hv hv' hu hraw hf hf' hfc hfc' j => ?_⟩
  obtain ⟨e1, e2, -⟩ := hρ raw feed feed' u0 y x y' x' hv hv' hu hraw hf hf' hfc hfc' j
  have hκ := (plain_consts h hC hQ j).2.2.2.2
  refine le_of_mul_le_mul_left ?_ hκ
  calc _ ≤ _ := e2
    _ ≤ ρ * (P.v * tH / (P.L * P.EBED) * ∫ t in (0 : ℝ)..S, (feed t j.succ - feed' t j.succ) ^ 2) := mul_le_mul_of_nonneg_left e1 h0.le
    _ = _ := by ring

theorem near_continuous {z : ℕ} {f : ℝ → ColState r p z → ColState r p z} {x : ℝ → ColState r p z} (hx : Spec.Solves colComp f 0 S x) (w : Fin (z + 1)) :
    ContinuousOn (fun t k => x t 0 k w) (Icc 0 S) :=
  continuousOn_pi.2 fun k => fun t ht => (hx t ht (0, k, w)).continuousWithinAt

/-- C281. Two series of passes under one raw water, from one start: whatever the first feeds, vessel `i` of the one is at all times within `C σ ^ i` times
their difference of vessel `i` of the other, with constants of the column, the totals and the interval alone. -/
theorem c281_passes (h : Spec.PlainColumn m P jac tH) {leg : Fin n → ℝ} (hleg : Spec.ShJacobiRoots n 1 1 leg)
    (hz : P.Az = aMat (axialNodes leg)) (hC : 0 < CT) (hQ : 0 < Q) (hS : 0 < S) : ∃ C σ : ℝ, 0 < C ∧ 0 < σ ∧ σ < 1 ∧
    ∀ (δ : ℝ) (raw : ℝ → Fin (p + 1) → ℝ) (u0 : ColState r p (n + 1)) (feed feed' : ℕ → ℝ → Fin (p + 1) → ℝ)
      (y x y' x' : ℕ → ℝ → ColState r p (n + 1)), Spec.Relay m P tH S raw u0 feed y x → Spec.Relay m P tH S raw u0 feed' y' x' →
      Spec.Totals CT Q u0 → (∀ t ∈ Icc 0 S, ∑ i, raw t i = CT) → (∀ t ∈ Icc 0 S, ∑ i, feed 0 t i = CT) →
      (∀ t ∈ Icc 0 S, ∑ i, feed' 0 t i = CT) → ContinuousOn (feed 0) (Icc 0 S) → ContinuousOn (feed' 0) (Icc 0 S) →
      (∀ t ∈ Icc 0 S, ∀ i, |feed 0 t i - feed' 0 t i| ≤ δ) →
      ∀ i, ∀ t ∈ Icc 0 S, Spec.ColNear (C * σ ^ i * δ) (y i t) (y' i t) ∧ Spec.ColNear (C * σ ^ i * δ) (x i t) (x' i t) := by
  have hg : Spec.AxialGrid (n + 1) P.Az := by rw [hz]; exact .single hleg
  have hA : Spec.MovesAll P.Az := axial_moves hg
  obtain ⟨G, hG, hP⟩ := passive_legendre hleg
  rw [← hz] at hG hP
  obtain ⟨ρ, hρ0, hρ1, hρ⟩ := vessel_energy h hA hG hP hC hQ hS
  obtain ⟨C1, K, ω1, hC1, hK, hω1, hgain⟩ := c267_gain (Q := Q) h hg hC hQ
  obtain ⟨C2, ω2, hC2, hω2, hforget⟩ := c257_forgets (Q := Q) h hg hC hQ
  have ha : 0 < CT / Q := div_pos hC hQ
  have hE0 := h.bed.1
  have hE1 : 0 < 1 - P.EBED := sub_pos.2 h.bed.2
  have hμ : 0 < 3 * (1 - P.EBED) / P.EBED := by positivity
  have hκ : 0 < P.v * tH / (P.L * P.EBED) := by
    have := h.flow.1; have := h.flow.2; have := h.time; positivity
  set E : ColExc r (n + 1) → ℝ := fun u => cdot (CT / Q) (3 * (1 - P.EBED) / P.EBED) G P.Wr u u with hE
  set κ := P.v * tH / (P.L * P.EBED) with hκd
  obtain ⟨k, hk, hkb⟩ := quad_dominates (Q := E) (R := fun u : ColExc r (n + 1) => ‖u‖ ^ 2) (by rw [hE]; unfold cdot tdot wdot; fun_prop) (by fun_prop)
    (fun u => (cdot_pos h.grid hG ha hμ u).1) (fun u => (cdot_pos h.grid hG ha hμ u).2) (fun c u => by rw [hE]; beta_reduce; rw [cdot_scale]; ring)
    (fun c u => by beta_reduce; rw [norm_smul, mul_pow, Real.norm_eq_abs, sq_abs])
  set σ := Real.sqrt ρ with hσ
  have hσ0 : 0 < σ := Real.sqrt_pos.2 hρ0
  have hσ1 : σ < 1 := by rw [hσ, Real.sqrt_lt' one_pos]; linarith
  have hσ2 : σ ^ 2 = ρ := Real.sq_sqrt hρ0.le
  set c0 := Real.sqrt (k * κ * S) with hc0
  have hc00 : 0 ≤ c0 := Real.sqrt_nonneg _
  have hc02 : c0 ^ 2 = k * κ * S := Real.sq_sqrt (by positivity)
  set D := 1 + (p + 1) * c0 / σ with hD
  have hD0 : 0 < D := by positivity
  refine ⟨(C2 + 1) * K * D, σ, by positivity, hσ0, hσ1, fun δ raw u0 feed feed' y x y' x' hr hr' hu hraw hf hf' hfc hfc' hδ => ?_⟩
  have hδ0 : 0 ≤ δ := (abs_nonneg _).trans (hδ 0 ⟨le_rfl, hS.le⟩ 0)
  have hlast : Fin.last (n + 1) ≠ 0 := Fin.last_pos.ne'
  -- what every vessel is fed with
  have hside : ∀ {feed : ℕ → ℝ → Fin (p + 1) → ℝ} {y x : ℕ → ℝ → ColState r p (n + 1)}, Spec.Relay m P tH S raw u0 feed y x →
      (∀ t ∈ Icc 0 S, ∑ i, feed 0 t i = CT) → ContinuousOn (feed 0) (Icc 0 S) →
      ∀ i, ((∀ t ∈ Icc 0 S, ∑ k, feed i t k = CT) ∧ ContinuousOn (feed i) (Icc 0 S)) ∧ Spec.Totals CT Q (x i 0) := by
    intro feed y x hr hf hfc i
    have hx : ∀ i, (∀ t ∈ Icc 0 S, ∑ k, feed i t k = CT) → Spec.Totals CT Q (x i 0) := fun i hi => by
      rw [(hr.vessel i).swap]
      exact totals_stay_var h hA hC hQ hi (hr.vessel i).lag (by rw [(hr.vessel i).start]; exact hu) S ⟨hS.le, le_rfl⟩
    induction i with
    | zero => exact ⟨⟨hf, hfc⟩, hx 0 hf⟩
    | succ i ih =>
      have hs : ∀ t ∈ Icc 0 S, ∑ k, feed (i + 1) t k = CT := fun t ht => by
        simp only [hr.handed i t ht]
        exact (totals_stay_var h hA hC hQ hraw (hr.vessel i).lead ih.2 t ht).water _ hlast
      refine ⟨⟨hs, ?_⟩, hx _ hs⟩
      refine (near_continuous (hr.vessel i).lead (Fin.last (n + 1))).congr fun t ht => ?_
      funext k
      exact hr.handed i t ht k
  have hA1 := hside hr hf hfc
  have hA2 := hside hr' hf' hfc'
  have hen := fun i => hρ raw (feed i) (feed' i) u0 (y i) (x i) (y' i) (x' i) (hr.vessel i) (hr'.vessel i) hu hraw (hA1 i).1.1 (hA2 i).1.1
    (hA1 i).1.2 (hA2 i).1.2
  -- energy at the swap
  have hEi : ∀ (j : Fin p) i, E (diffExc j (x i 0) (x' i 0)) ≤ κ * S * δ ^ 2 * ρ ^ i := by
    intro j i
    induction i with
    | zero =>
      refine ((hen 0 j).1).trans ?_
      rw [pow_zero, mul_one, mul_assoc]
      refine mul_le_mul_of_nonneg_left ?_ hκ.le
      have hc : ContinuousOn (fun t => (feed 0 t j.succ - feed' 0 t j.succ) ^ 2) (Icc 0 S) :=
        ((continuousOn_pi.1 hfc j.succ).sub (continuousOn_pi.1 hfc' j.succ)).pow 2
      have h1 := intervalIntegral.integral_mono_on (μ := MeasureTheory.volume) hS.le (hc.intervalIntegrable_of_Icc hS.le)
        (continuousOn_const.intervalIntegrable_of_Icc hS.le) (g := fun _ => δ ^ 2) fun t ht => by
          have := hδ t ht j.succ
          beta_reduce
          rw [← sq_abs]
          exact pow_le_pow_left₀ (abs_nonneg _) this 2
      rw [intervalIntegral.integral_const, sub_zero, smul_eq_mul] at h1
      exact h1
    | succ i ih =>
      have e : (∫ t in (0 : ℝ)..S, (feed (i + 1) t j.succ - feed' (i + 1) t j.succ) ^ 2) =
          ∫ t in (0 : ℝ)..S, (x i t 0 j.succ (Fin.last (n + 1)) - x' i t 0 j.succ (Fin.last (n + 1))) ^ 2 := by
        refine intervalIntegral.integral_congr fun t ht => ?_
        rw [uIcc_of_le hS.le] at ht
        beta_reduce
        rw [hr.handed i t ht, hr'.handed i t ht]
      have h1 := (hen (i + 1) j).1
      rw [e] at h1
      have h2 := mul_le_mul_of_nonneg_left ih hρ0.le
      have h3 := (hen i j).2.1
      rw [pow_succ]
      calc _ ≤ _ := h1
        _ ≤ _ := h3
        _ ≤ _ := h2
        _ = _ := by ring
  -- the effluent of the lead vessel
  have hout : ∀ (j : Fin p) i, ∀ t ∈ Icc 0 S, |x i t 0 j.succ (Fin.last (n + 1)) - x' i t 0 j.succ (Fin.last (n + 1))| ≤ c0 * σ ^ i * δ := by
    intro j i t ht
    have h1 : |x i t 0 j.succ (Fin.last (n + 1)) - x' i t 0 j.succ (Fin.last (n + 1))| ≤ ‖diffExc j (x i t) (x' i t)‖ :=
      (norm_snd_le (diffExc j (x i t) (x' i t) (Fin.last n))).trans (norm_le_pi_norm (diffExc j (x i t) (x' i t)) (Fin.last n))
    have h2 := (hkb (diffExc j (x i t) (x' i t))).trans (mul_le_mul_of_nonneg_left (((hen i j).2.2 t ht).trans (hEi j i)) hk.le)
    beta_reduce at h2
    have h3 : ‖diffExc j (x i t) (x' i t)‖ ^ 2 ≤ (c0 * σ ^ i * δ) ^ 2 := by
      refine h2.trans (le_of_eq ?_)
      rw [mul_pow, mul_pow, hc02, ← pow_mul, mul_comm i 2, pow_mul, hσ2]
      ring
    exact h1.trans (le_of_sq_le_sq h3 (by positivity))
  have hfeed : ∀ i, ∀ t ∈ Icc 0 S, ∀ k, |feed i t k - feed' i t k| ≤ D * σ ^ i * δ := by
    intro i t ht k
    cases i with
    | zero =>
      refine (hδ t ht k).trans ?_
      rw [pow_zero, mul_one]
      refine le_mul_of_one_le_left hδ0 ?_
      rw [hD]
      have : 0 ≤ (p + 1) * c0 / σ := by positivity
      linarith
    | succ i =>
      set b := c0 * σ ^ i * δ with hb
      have hb0 : 0 ≤ b := by positivity
      have hj : ∀ j : Fin p, |feed (i + 1) t j.succ - feed' (i + 1) t j.succ| ≤ b := fun j => by
        rw [hr.handed i t ht, hr'.handed i t ht]
        exact hout j i t ht
      have hle : (p + 1 : ℝ) * b ≤ D * σ ^ (i + 1) * δ := by
        have e : D * σ ^ (i + 1) * δ = σ ^ (i + 1) * δ + (p + 1 : ℝ) * b := by
          rw [hD, hb, pow_succ]
          field_simp
        rw [e]
        have : 0 ≤ σ ^ (i + 1) * δ := by positivity
        linarith
      refine le_trans ?_ hle
      refine Fin.cases ?_ (fun j => ?_) k
      · have e1 := first_of_others ((hA1 (i + 1)).1.1 t ht)
        have e2 := first_of_others ((hA2 (i + 1)).1.1 t ht)
        have e3 : feed (i + 1) t 0 - feed' (i + 1) t 0 = -∑ j : Fin p, (feed (i + 1) t j.succ - feed' (i + 1) t j.succ) := by
          rw [e1, e2, Finset.sum_sub_distrib]
          ring
        rw [e3, abs_neg]
        refine (Finset.abs_sum_le_sum_abs _ _).trans ((Finset.sum_le_sum fun j _ => hj j).trans ?_)
        rw [Finset.sum_const, Finset.card_univ, Fintype.card_fin, nsmul_eq_mul]
        linarith
      · refine (hj j).trans ?_
        have : 0 ≤ (p : ℝ) * b := by positivity
        linarith
  intro i t ht
  have hd0 : 0 ≤ D * σ ^ i * δ := by positivity
  have n1 : ∀ t ∈ Icc 0 S, Spec.ColNear (K * (D * σ ^ i * δ)) (y i t) (y' i t) := fun t ht => by
    have := hgain 0 (D * σ ^ i * δ) S (feed i) (feed' i) (y i) (y' i) (hA1 i).1.1 (hA2 i).1.1 (hfeed i) (hr.vessel i).lag (hr'.vessel i).lag
      (by rw [(hr.vessel i).start]; exact hu) (by rw [(hr'.vessel i).start]; exact hu)
      (by rw [(hr.vessel i).start, (hr'.vessel i).start]; exact ⟨fun _ _ _ => by simp, fun _ _ _ => by simp⟩) t ht
    rwa [mul_zero, zero_add] at this
  have n2 := hforget (K * (D * σ ^ i * δ)) S raw (x i) (x' i) hraw (hr.vessel i).lead (hr'.vessel i).lead (hA1 i).2 (hA2 i).2
    (by rw [(hr.vessel i).swap, (hr'.vessel i).swap]; exact n1 S ⟨hS.le, le_rfl⟩) t ht
  have hexp : Real.exp (-(ω2 * t)) ≤ 1 := by rw [Real.exp_le_one_iff]; have := mul_nonneg hω2.le ht.1; linarith
  have hkd : 0 ≤ K * (D * σ ^ i * δ) := by positivity
  refine ⟨ColNear.mono (n1 t ht) ?_, ColNear.mono n2 ?_⟩
  · have : 0 ≤ C2 * (K * (D * σ ^ i * δ)) := by positivity
    linarith
  · have h1 : C2 * Real.exp (-(ω2 * t)) * (K * (D * σ ^ i * δ)) ≤ C2 * 1 * (K * (D * σ ^ i * δ)) := by gcongr
    linarith

/-- A sequence of columns that come closer geometrically, with one value kept at the inlet, has a limit. -/
theorem near_limit {z : ℕ} {v : ℕ → ColState r p z} {b σ : ℝ} {c : Fin (p + 1) → ℝ} (hσ : σ < 1) (hv : ∀ i, Spec.ColNear (b * σ ^ i) (v i) (v (i + 1)))
    (hc : ∀ i k, v i 0 k 0 = c k) (ht : ∀ i, Spec.Totals CT Q (v i)) : ∃ U : ColState r p z, Spec.Totals CT Q U ∧ (∀ k, U 0 k 0 = c k) ∧
      ∀ η : ℝ, 0 < η → ∀ᶠ i in Filter.atTop, Spec.ColNear η (v i) U := by
  have hl : ∀ a k w, ∃ l, Filter.Tendsto (fun i : ℕ => v i a k w) Filter.atTop (nhds l) := by
    intro a k w
    by_cases haw : a = 0 ∧ w = 0
    · obtain ⟨rfl, rfl⟩ := haw
      simp only [hc]
      exact ⟨c k, tendsto_const_nhds⟩
    · refine cauchySeq_tendsto_of_complete (cauchySeq_of_le_geometric σ b hσ fun i => ?_)
      rw [Real.dist_eq]
      by_cases ha : a = 0
      · subst ha
        exact (hv i).1 k w fun hw => haw ⟨rfl, hw⟩
      · obtain ⟨l, rfl⟩ := Fin.exists_succ_eq.2 ha
        exact (hv i).2 l k w
  choose U hU using hl
  refine ⟨U, ⟨fun w hw => ?_, fun k w => ?_⟩, fun k => ?_, fun η hη => ?_⟩
  · refine tendsto_nhds_unique (tendsto_finsetSum _ fun i _ => hU 0 i w) ?_
    simp only [(ht _).water w hw]
    exact tendsto_const_nhds
  · refine tendsto_nhds_unique (tendsto_finsetSum _ fun i _ => hU k.succ i w) ?_
    simp only [(ht _).beads k w]
    exact tendsto_const_nhds
  · refine tendsto_nhds_unique (hU 0 k 0) ?_
    simp only [hc]
    exact tendsto_const_nhds
  · have h1 : ∀ᶠ i : ℕ in Filter.atTop, ∀ a k w, |v i a k w - U a k w| ≤ η := by
      refine Filter.eventually_all.2 fun a => Filter.eventually_all.2 fun k => Filter.eventually_all.2 fun w => ?_
      filter_upwards [Metric.tendsto_nhds.1 (hU a k w) η hη] with i hi
      rw [Real.dist_eq] at hi
      exact hi.le
    filter_upwards [h1] with i hi
    exact ⟨fun k w _ => hi 0 k w, fun l k w => hi l.succ k w⟩

/-- What a vessel can be fed with. -/
def GoodFeed (CT : ℝ) (p : ℕ) : Type := {f : ℝ → Fin (p + 1) → ℝ // Continuous f ∧ ∀ t, ∑ i, f t i = CT}

/-- The effluent of a column that runs for ever, held at its first value before the start. -/
theorem effluent_good (h : Spec.PlainColumn m P jac tH) (hA : Spec.MovesAll P.Az) (hC : 0 < CT) (hQ : 0 < Q) {raw : ℝ → Fin (p + 1) → ℝ}
    (hs : ∀ t, ∑ i, raw t i = CT) {x : ℝ → ColState r p (n + 1)} (hx : ∀ T, Spec.Solves colComp (fun t u => m.rhs P tH (raw t) u) 0 T x)
    (h0 : Spec.Totals CT Q (x 0)) : Continuous (fun t k => x (max t 0) 0 k (Fin.last (n + 1))) ∧
      ∀ t, ∑ k, x (max t 0) 0 k (Fin.last (n + 1)) = CT := by
  refine ⟨continuous_pi fun k => ?_, fun t => (totals_stay_var h hA hC hQ (fun t _ => hs t) (hx (max t 0)) h0 _ ⟨le_max_right _ _, le_rfl⟩).water _
    Fin.last_pos.ne'⟩
  have hc : ContinuousOn (fun t => x t 0 k (Fin.last (n + 1))) (Ici 0) := fun t ht => by
    have h1 : ContinuousWithinAt (fun t => x t 0 k (Fin.last (n + 1))) (Icc 0 (t + 1)) t :=
      (hx (t + 1) t ⟨ht, by linarith⟩ (0, k, Fin.last (n + 1))).continuousWithinAt
    refine h1.mono_of_mem_nhdsWithin ?_
    rw [mem_nhdsWithin]
    exact ⟨Iio (t + 1), isOpen_Iio, by simp, fun s hs => ⟨hs.2, hs.1.le⟩⟩
  exact hc.comp_continuous (continuous_id.max continuous_const) fun t => mem_Ici.2 (le_max_right _ _)

/-- C281. There is a vessel that, fed before the swap with what it gives off after it, starts from `u0`. -/
theorem c281_steady (h : Spec.PlainColumn m P jac tH) {leg : Fin n → ℝ} (hleg : Spec.ShJacobiRoots n 1 1 leg)
    (hz : P.Az = aMat (axialNodes leg)) (hC : 0 < CT) (hQ : 0 < Q) (hS : 0 < S) {raw : ℝ → Fin (p + 1) → ℝ} (hr : Continuous raw)
    (hs : ∀ t, ∑ i, raw t i = CT) {u0 : ColState r p (n + 1)} (hu : Spec.Totals CT Q u0) :
    ∃ Y X, Spec.Vessel m P tH S raw (fun t k => X t 0 k (Fin.last (n + 1))) u0 Y X ∧ ∀ t ∈ Icc 0 S, ∑ i, X t 0 i (Fin.last (n + 1)) = CT := by
  have hg : Spec.AxialGrid (n + 1) P.Az := by rw [hz]; exact .single hleg
  have hA : Spec.MovesAll P.Az := axial_moves hg
  obtain ⟨C, σ, hCp, hσ0, hσ1, hpass⟩ := c281_passes (Q := Q) h hleg hz hC hQ hS
  obtain ⟨C1, K, ω1, hC1, hK, hω1, hgain⟩ := c267_gain (Q := Q) h hg hC hQ
  obtain ⟨C2, ω2, hC2, hω2, hforget⟩ := c257_forgets (Q := Q) h hg hC hQ
  have hmem : S ∈ Icc (0 : ℝ) S := ⟨hS.le, le_rfl⟩
  have hv : ∀ f : GoodFeed CT p, ∃ y x : ℝ → ColState r p (n + 1), y 0 = u0 ∧ (∀ T, Spec.Solves colComp (fun t u => m.rhs P tH (f.1 t) u) 0 T y) ∧
      x 0 = y S ∧ (∀ T, Spec.Solves colComp (fun t u => m.rhs P tH (raw t) u) 0 T x) ∧ Spec.Totals CT Q (x 0) := by
    intro f
    obtain ⟨y, hy0, hy, -⟩ := c257_run h hg hC hQ f.2.1 f.2.2 hu
    have ht := totals_stay_var h hA hC hQ (fun t _ => f.2.2 t) (hy S) (by rw [hy0]; exact hu) S hmem
    obtain ⟨x, hx0, hx, -⟩ := c257_run h hg hC hQ hr hs ht
    exact ⟨y, x, hy0, hy, hx0, hx, by rw [hx0]; exact ht⟩
  choose Y X hY0 hY hX0 hX hXt using hv
  let next : GoodFeed CT p → GoodFeed CT p := fun f => ⟨_, effluent_good h hA hC hQ hs (hX f) (hXt f)⟩
  let F : ℕ → GoodFeed CT p := fun i => next^[i] ⟨raw, hr, hs⟩
  have hF : ∀ i, F (i + 1) = next (F i) := fun i => Function.iterate_succ_apply' next i _
  have hrel : ∀ a, Spec.Relay m P tH S raw u0 (fun i => (F (i + a)).1) (fun i => Y (F (i + a))) (fun i => X (F (i + a))) := fun a =>
    ⟨fun i => ⟨hY0 _, hY _ S, hX0 _, hX _ S⟩, fun i t ht k => by
      have e : F (i + 1 + a) = next (F (i + a)) := by rw [← hF]; congr 1; ring
      rw [e]
      show X (F (i + a)) (max t 0) 0 k (Fin.last (n + 1)) = _
      rw [max_eq_left ht.1]⟩
  obtain ⟨δ, hδ⟩ : ∃ δ : ℝ, ∀ t ∈ Icc (0 : ℝ) S, ∀ i, |(F 0).1 t i - (F 1).1 t i| ≤ δ := by
    obtain ⟨b, hb⟩ := isCompact_Icc.exists_bound_of_continuousOn (((F 0).2.1.sub (F 1).2.1).continuousOn (s := Icc (0 : ℝ) S))
    exact ⟨b, fun t ht i => (norm_le_pi_norm ((F 0).1 t - (F 1).1 t) i).trans (hb t ht)⟩
  have hstep : ∀ i, Spec.ColNear (C * δ * σ ^ i) (X (F i) 0) (X (F (i + 1)) 0) := fun i => by
    have := (hpass δ raw u0 _ _ _ _ _ _ (hrel 0) (hrel 1) hu (fun t _ => hs t) (fun t _ => (F _).2.2 t) (fun t _ => (F _).2.2 t)
      (F _).2.1.continuousOn (F _).2.1.continuousOn hδ i 0 ⟨le_rfl, hS.le⟩).2
    rw [show C * δ * σ ^ i = C * σ ^ i * δ by ring]
    exact this
  obtain ⟨U, hUt, hU0, hU⟩ := near_limit hσ1 hstep (c := fun k => u0 0 k 0)
    (fun i k => by rw [hX0, inlet_const (hY _) k hS.le, hY0]) (fun i => hXt _)
  -- the run from the limit
  obtain ⟨XX, hx0, hx, -⟩ := c257_run h hg hC hQ hr hs hUt
  obtain ⟨hfc, hfs⟩ := effluent_good h hA hC hQ hs hx (by rw [hx0]; exact hUt)
  obtain ⟨YY, hy0, hy, -⟩ := c257_run h hg hC hQ hfc hfs hu
  have hback : ∀ η : ℝ, 0 < η → Spec.ColNear (K * (C2 * η) + η) (YY S) U := by
    intro η hη
    obtain ⟨i, hi⟩ := Filter.eventually_atTop.1 (hU η hη)
    have h1 : ∀ t ∈ Icc (0 : ℝ) S, Spec.ColNear (C2 * η) (XX t) (X (F i) t) := fun t ht => by
      have := hforget η S raw XX (X (F i)) (fun t _ => hs t) (hx S) (hX _ S) (by rw [hx0]; exact hUt) (hXt _)
        (by rw [hx0]; exact ColNear.symm (hi i le_rfl)) t ht
      refine ColNear.mono this ?_
      have he : Real.exp (-(ω2 * t)) ≤ 1 := by rw [Real.exp_le_one_iff]; have := mul_nonneg hω2.le ht.1; linarith
      have : C2 * Real.exp (-(ω2 * t)) * η ≤ C2 * 1 * η := by gcongr
      linarith
    have h2 := hgain 0 (C2 * η) S _ (F (i + 1)).1 YY (Y (F (i + 1))) (fun t _ => hfs t) (fun t _ => (F _).2.2 t) (fun t ht k => by
        rw [hF]
        show |_ - X (F i) (max t 0) 0 k (Fin.last (n + 1))| ≤ _
        rw [max_eq_left ht.1]
        exact (h1 t ht).1 k _ Fin.last_pos.ne') (hy S) (hY _ S) (by rw [hy0]; exact hu) (by rw [hY0]; exact hu)
      (by rw [hy0, hY0]; exact ⟨fun _ _ _ => by simp, fun _ _ _ => by simp⟩) S hmem
    rw [mul_zero, zero_add, ← hX0] at h2
    exact ColNear.trans h2 (hi (i + 1) (Nat.le_succ i))
  have hzero : ∀ x : ℝ, (∀ η : ℝ, 0 < η → |x| ≤ K * (C2 * η) + η) → x = 0 := by
    intro x hx
    by_contra hne
    have hp : 0 < |x| := abs_pos.2 hne
    have := hx (|x| / (2 * (K * C2 + 1))) (by positivity)
    have e : K * (C2 * (|x| / (2 * (K * C2 + 1)))) + |x| / (2 * (K * C2 + 1)) = |x| / 2 := by field_simp
    rw [e] at this
    linarith
  have hend : XX 0 = YY S := by
    rw [hx0]
    funext a k w
    refine Eq.symm (Fin.cases ?_ (fun l => ?_) a)
    · by_cases hw : w = 0
      · rw [hw, inlet_const hy k hS.le, hy0, hU0]
      · exact sub_eq_zero.1 (hzero _ fun η hη => (hback η hη).1 k w hw)
    · exact sub_eq_zero.1 (hzero _ fun η hη => (hback η hη).2 l k w)
  refine ⟨YY, XX, ⟨hy0, fun t ht a => ?_, hend, hx S⟩, fun t ht => by have := hfs t; rwa [max_eq_left ht.1] at this⟩
  have := hy S t ht a
  beta_reduce at this ⊢
  rwa [max_eq_left ht.1] at this

/-- C281. Every series of passes from `u0` approaches it, geometrically and at all times of the passes, and no other vessel feeds itself. -/
theorem c281_limit (h : Spec.PlainColumn m P jac tH) {leg : Fin n → ℝ} (hleg : Spec.ShJacobiRoots n 1 1 leg)
    (hz : P.Az = aMat (axialNodes leg)) (hC : 0 < CT) (hQ : 0 < Q) (hS : 0 < S) : ∃ C σ : ℝ, 0 < C ∧ 0 < σ ∧ σ < 1 ∧
    ∀ {raw : ℝ → Fin (p + 1) → ℝ} {u0 : ColState r p (n + 1)} {Y X : ℝ → ColState r p (n + 1)},
      Spec.Vessel m P tH S raw (fun t k => X t 0 k (Fin.last (n + 1))) u0 Y X → Spec.Totals CT Q u0 → (∀ t ∈ Icc 0 S, ∑ i, raw t i = CT) →
      (∀ t ∈ Icc 0 S, ∑ i, X t 0 i (Fin.last (n + 1)) = CT) →
      (∀ (δ : ℝ) (feed : ℕ → ℝ → Fin (p + 1) → ℝ) (y x : ℕ → ℝ → ColState r p (n + 1)), Spec.Relay m P tH S raw u0 feed y x →
        (∀ t ∈ Icc 0 S, ∑ i, feed 0 t i = CT) → ContinuousOn (feed 0) (Icc 0 S) →
        (∀ t ∈ Icc 0 S, ∀ i, |feed 0 t i - X t 0 i (Fin.last (n + 1))| ≤ δ) →
        ∀ i, ∀ t ∈ Icc 0 S, Spec.ColNear (C * σ ^ i * δ) (y i t) (Y t) ∧ Spec.ColNear (C * σ ^ i * δ) (x i t) (X t)) ∧
      ∀ Y' X', Spec.Vessel m P tH S raw (fun t k => X' t 0 k (Fin.last (n + 1))) u0 Y' X' →
        (∀ t ∈ Icc 0 S, ∑ i, X' t 0 i (Fin.last (n + 1)) = CT) → ∀ t ∈ Icc 0 S, Spec.ColNear 0 (Y' t) (Y t) ∧ Spec.ColNear 0 (X' t) (X t) := by
  obtain ⟨C, σ, hCp, hσ0, hσ1, hpass⟩ := c281_passes (r := r) (Q := Q) h hleg hz hC hQ hS
  refine ⟨C, σ, hCp, hσ0, hσ1, fun {raw u0 Y X} hv hu hraw hs => ?_⟩
  have hrel : ∀ {Y X : ℝ → ColState r p (n + 1)}, Spec.Vessel m P tH S raw (fun t k => X t 0 k (Fin.last (n + 1))) u0 Y X →
      Spec.Relay m P tH S raw u0 (fun _ t k => X t 0 k (Fin.last (n + 1))) (fun _ => Y) (fun _ => X) := fun hv => ⟨fun _ => hv, fun _ _ _ _ => rfl⟩
  have hcont := near_continuous hv.lead (Fin.last (n + 1))
  have hlim : ∀ (δ : ℝ) (feed : ℕ → ℝ → Fin (p + 1) → ℝ) (y x : ℕ → ℝ → ColState r p (n + 1)), Spec.Relay m P tH S raw u0 feed y x →
        (∀ t ∈ Icc 0 S, ∑ i, feed 0 t i = CT) → ContinuousOn (feed 0) (Icc 0 S) →
        (∀ t ∈ Icc 0 S, ∀ i, |feed 0 t i - X t 0 i (Fin.last (n + 1))| ≤ δ) →
        ∀ i, ∀ t ∈ Icc 0 S, Spec.ColNear (C * σ ^ i * δ) (y i t) (Y t) ∧ Spec.ColNear (C * σ ^ i * δ) (x i t) (X t) :=
    fun δ feed y x hr hf hfc hδ => hpass δ raw u0 feed _ y x _ _ hr (hrel hv) hu hraw hf hs hfc hcont hδ
  refine ⟨hlim, fun Y' X' hv' hs' t ht => ?_⟩
  have hcont' := near_continuous hv'.lead (Fin.last (n + 1))
  obtain ⟨δ, hδ⟩ : ∃ δ : ℝ, ∀ t ∈ Icc (0 : ℝ) S, ∀ i, |X' t 0 i (Fin.last (n + 1)) - X t 0 i (Fin.last (n + 1))| ≤ δ := by
    obtain ⟨b, hb⟩ := isCompact_Icc.exists_bound_of_continuousOn (hcont'.sub hcont)
    exact ⟨b, fun t ht i => (norm_le_pi_norm ((fun k => X' t 0 k (Fin.last (n + 1))) - fun k => X t 0 k (Fin.last (n + 1))) i).trans (hb t ht)⟩
  have hn := fun i => hlim δ _ _ _ (hrel hv') hs' hcont' hδ i t ht
  have h0 : Filter.Tendsto (fun i : ℕ => C * σ ^ i * δ) Filter.atTop (nhds 0) := by
    simpa using ((tendsto_pow_atTop_nhds_zero_of_lt_one hσ0.le hσ1).const_mul C).mul_const δ
  exact ⟨⟨fun k w hw => ge_of_tendsto' h0 fun i => (hn i).1.1 k w hw, fun l k w => ge_of_tendsto' h0 fun i => (hn i).1.2 l k w⟩,
    ⟨fun k w hw => ge_of_tendsto' h0 fun i => (hn i).2.1 k w hw, fun l k w => ge_of_tendsto' h0 fun i => (hn i).2.2 l k w⟩⟩

/-- Columns of both models and any numbers of nodes that change places every two time units under a water with three ions that wavers, from fresh resin: there is
the vessel that feeds itself, and the passes of a first vessel fed with the raw water itself approach it. -/
example (m : ColModel) (r n : ℕ) : ∃ (P : ColParams r 2 (n + 1)) (u0 : ColState r 2 (n + 1)) (Y X : ℝ → ColState r 2 (n + 1)) (b σ : ℝ), σ < 1 ∧
    Spec.Vessel m P 1 2 (fun t => ![1, 2 + Real.sin t, 3 - Real.sin t]) (fun t k => X t 0 k (Fin.last (n + 1))) u0 Y X ∧
    ∀ feed y x, Spec.Relay m P 1 2 (fun t => ![1, 2 + Real.sin t, 3 - Real.sin t]) u0 feed y x →
      feed 0 = (fun t => ![1, 2 + Real.sin t, 3 - Real.sin t]) → ∀ i, ∀ t ∈ Icc (0 : ℝ) 2, Spec.ColNear (b * σ ^ i) (x i t) (X t) := by
  obtain ⟨leg, hleg, -⟩ := legendre_exists n
  obtain ⟨jac, B, W, g⟩ := beadGrid_exists r
  let P : ColParams r 2 (n + 1) := ⟨1 / 2, 1, 1, 1, 5, 1 / 2, fun _ => 1, fun _ => 1, fun _ => 2, fun _ => 1, fun _ => 1, aMat (axialNodes leg), B, W⟩
  have hP : Spec.PlainColumn m P jac 1 := ⟨g, by show (0 : ℝ) < 1 / 2 ∧ (1 / 2 : ℝ) < 1; norm_num, ⟨one_pos, one_pos⟩, one_pos, one_pos,
    fun _ _ => ⟨one_pos, one_pos⟩, fun _ => ⟨by show (0 : ℝ) ≤ 1 / 2; norm_num, by show (1 / 2 : ℝ) < 1; norm_num,
      fun _ _ => by show (1 : ℝ) ≤ 2; norm_num⟩, fun _ => rfl, fun _ => by show (1 : ℕ) ≠ 2; decide⟩
  have hC : (0 : ℝ) < 6 := by norm_num
  have hQ : (0 : ℝ) < 5 := by norm_num
  let cin : ℝ → Fin 3 → ℝ := fun t => ![1, 2 + Real.sin t, 3 - Real.sin t]
  have hc : Continuous cin := by
    refine continuous_pi fun i => ?_
    fin_cases i
    · exact continuous_const
    · exact continuous_const.add Real.continuous_sin
    · exact continuous_const.sub Real.continuous_sin
  have hsum : ∀ t, ∑ i, cin t i = 6 := by
    intro t
    simp [cin, Fin.sum_univ_three]
    ring
  have hu : Spec.Totals 6 5 (colInit 5 (cin 0) none : ColState r 2 (n + 1)) :=
    ⟨fun w _ => ((c33_column 5 (cin 0)).2.1 w).trans (hsum 0), (c33_column 5 (cin 0)).1⟩
  obtain ⟨Y, X, hv, hX⟩ := c281_steady (S := 2) hP hleg rfl hC hQ two_pos hc hsum hu
  obtain ⟨C, σ, -, -, hσ, hlim⟩ := c281_limit (S := 2) hP hleg rfl hC hQ two_pos
  have hcont := near_continuous hv.lead (Fin.last (n + 1))
  obtain ⟨δ, hδ⟩ := isCompact_Icc.exists_bound_of_continuousOn (hc.continuousOn.sub hcont)
  refine ⟨P, _, Y, X, C * δ, σ, hσ, hv, fun feed y x hr hf i t ht => ?_⟩
  have := ((hlim hv hu (fun t _ => hsum t) hX).1 δ feed y x hr (fun t _ => by rw [hf]; exact hsum t) (by rw [hf]; exact hc.continuousOn)
    (fun t ht k => by rw [hf]; exact (norm_le_pi_norm (cin t - fun k => X t 0 k (Fin.last (n + 1))) k).trans (hδ t ht)) i t ht).2
  rwa [show C * δ * σ ^ i = C * σ ^ i * δ by ring]

end
end WTM
