import Verif.Props.LeadSteady

/-! Property C282: swapped vessels as in C281, but with errors in what is handed on, as when the effluent of one vessel is sampled every quarter of a day
and the next is fed with straight lines between the samples (lead_lag_class.py:540, 581-585). -/
set_option autoImplicit false
namespace WTM
open BigOperators Set

section
variable {r p n : ℕ} {m : ColModel} {P : ColParams r p (n + 1)} {jac : Fin r → ℝ} {tH CT Q S : ℝ}

/-- Specification: vessels from one start and under one raw water, each with some continuous feed of the total `CT` until its swap. -/
structure Spec.Vessels {z : ℕ} (m : ColModel) (P : ColParams r p z) (tH S CT : ℝ) (raw : ℝ → Fin (p + 1) → ℝ) (u0 : ColState r p z)
    (feed : ℕ → ℝ → Fin (p + 1) → ℝ) (y x : ℕ → ℝ → ColState r p z) : Prop where
  vessel : ∀ i, Spec.Vessel m P tH S raw (feed i) u0 (y i) (x i)
  total : ∀ i, ∀ t ∈ Icc 0 S, ∑ k, feed i t k = CT
  cont : ∀ i, ContinuousOn (feed i) (Icc 0 S)

theorem abs_first_le {p : ℕ} {f f' : Fin (p + 1) → ℝ} {CT b : ℝ} (hb : 0 ≤ b) (hf : ∑ i, f i = CT) (hf' : ∑ i, f' i = CT)
    (hj : ∀ j : Fin p, |f j.succ - f' j.succ| ≤ b) (k : Fin (p + 1)) : |f k - f' k| ≤ (p + 1) * b := by
  refine Fin.cases ?_ (fun j => ?_) k
  · have e3 : f 0 - f' 0 = -∑ j : Fin p, (f j.succ - f' j.succ) := by
      rw [first_of_others hf, first_of_others hf', Finset.sum_sub_distrib]
      ring
    rw [e3, abs_neg]
    refine (Finset.abs_sum_le_sum_abs _ _).trans ((Finset.sum_le_sum fun j _ => hj j).trans ?_)
    rw [Finset.sum_const, Finset.card_univ, Fintype.card_fin, nsmul_eq_mul]
    linarith
  · refine (hj j).trans ?_
    have : 0 ≤ (p : ℝ) * b := by positivity
    linarith

set_option maxHeartbeats 1000000 in
/-- Passes with errors that are small against the difference of the vessels, up to `η`. -/
theorem relay_energy (h : Spec.PlainColumn m P jac tH) {G : Fin (n + 1) → Fin (n + 1) → ℝ} (hg : Spec.AxialGrid (n + 1) P.Az) (hG : AxialForm P.Az G)
    (hP : PassiveForm P.Az G) (hC : 0 < CT) (hQ : 0 < Q) (hS : 0 < S) : ∃ g C σ : ℝ, 0 < g ∧ 0 < C ∧ 0 < σ ∧ σ < 1 ∧
    ∀ (δ η : ℝ) (raw : ℝ → Fin (p + 1) → ℝ) (u0 : ColState r p (n + 1)) (feed feed' : ℕ → ℝ → Fin (p + 1) → ℝ)
      (y x y' x' : ℕ → ℝ → ColState r p (n + 1)), Spec.Vessels m P tH S CT raw u0 feed y x → Spec.Vessels m P tH S CT raw u0 feed' y' x' →
      Spec.Totals CT Q u0 → (∀ t ∈ Icc 0 S, ∑ i, raw t i = CT) → 0 ≤ η → (∀ t ∈ Icc 0 S, ∀ i, |feed 0 t i - feed' 0 t i| ≤ δ) →
      (∀ i, ∀ t ∈ Icc 0 S, ∀ j : Fin p, |feed (i + 1) t j.succ - feed' (i + 1) t j.succ -
        (x i t 0 j.succ (Fin.last (n + 1)) - x' i t 0 j.succ (Fin.last (n + 1)))| ≤ η +
          g * Real.sqrt (cdot (CT / Q) (3 * (1 - P.EBED) / P.EBED) G P.Wr (diffExc j (x i 0) (x' i 0)) (diffExc j (x i 0) (x' i 0)))) →
      ∀ i, ∀ t ∈ Icc 0 S, Spec.ColNear (C * (σ ^ i * δ + η)) (y i t) (y' i t) ∧ Spec.ColNear (C * (σ ^ i * δ + η)) (x i t) (x' i t) := by
  have hA : Spec.MovesAll P.Az := axial_moves hg
  obtain ⟨ρ, hρ0, hρ1, hρ⟩ := vessel_energy h hA hG hP hC hQ hS
  obtain ⟨C1, K, ω1, hC1, hK, hω1, hgain⟩ := c267_gain (Q := Q) h hg hC hQ
  obtain ⟨C2, ω2, hC2, hω2, hforget⟩ := c257_forgets (Q := Q) h hg hC hQ
  have ha : 0 < CT / Q := div_pos hC hQ
  have hE0 := h.bed.1
  have hE1 : 0 < 1 - P.EBED := sub_pos.2 h.bed.2
  have hμ : 0 < 3 * (1 - P.EBED) / P.EBED := by positivity
  have hκ : 0 < P.v * tH / (P.L * P.EBED) := by
    have := h.flow.1; have := h.flow.2; have := h.time; positivity
  set E : ColExc r (n + 1) → ℝ := fun u => cdot (CT / Q) (3 * (1 - P.EBED) / P.EBED) G P.Wr u u with hE
  set κ := P.v * tH / (P.L * P.EBED) with hκd
  have hEp : ∀ u, 0 ≤ E u := fun u => (cdot_pos h.grid hG ha hμ u).1
  obtain ⟨k, hk, hkb⟩ := quad_dominates (Q := E) (R := fun u : ColExc r (n + 1) => ‖u‖ ^ 2) (by rw [hE]; unfold cdot tdot wdot; fun_prop) (by fun_prop)
    hEp (fun u => (cdot_pos h.grid hG ha hμ u).2) (fun c u => by rw [hE]; beta_reduce; rw [cdot_scale]; ring)
    (fun c u => by beta_reduce; rw [norm_smul, mul_pow, Real.norm_eq_abs, sq_abs])
  -- a square of a sum, in two parts
  obtain ⟨N, hN0, hN⟩ : ∃ N : ℝ, 0 < N ∧ ∀ a b : ℝ, ρ * (a + b) ^ 2 ≤ (1 + ρ) / 2 * a ^ 2 + N * b ^ 2 := by
    refine ⟨ρ * (1 + ρ) / (1 - ρ), div_pos (by positivity) (by linarith), fun a b => ?_⟩
    have h1 : 0 < 1 - ρ := by linarith
    have e : (1 + ρ) / 2 * a ^ 2 + ρ * (1 + ρ) / (1 - ρ) * b ^ 2 - ρ * (a + b) ^ 2 =
        ((1 - ρ) * a - 2 * ρ * b) ^ 2 / (2 * (1 - ρ)) := by
      field_simp
      ring
    have : 0 ≤ ((1 - ρ) * a - 2 * ρ * b) ^ 2 / (2 * (1 - ρ)) := by positivity
    linarith
  set N1 := N / ρ * κ * S with hN1
  have hN1p : 0 < N1 := by positivity
  set g := Real.sqrt ((1 - ρ) / (8 * N1)) with hgd
  have hg0 : 0 < g := Real.sqrt_pos.2 (div_pos (by linarith) (by positivity))
  have hg2 : 2 * N1 * g ^ 2 = (1 - ρ) / 4 := by
    rw [hgd, Real.sq_sqrt (div_nonneg (by linarith) (by positivity)), mul_div_assoc', div_eq_div_iff (by positivity) (by norm_num)]
    ring
  set ρ' := (3 + ρ) / 4 with hρ'
  have hρ'0 : 0 < ρ' := by rw [hρ']; linarith
  have hρ'1 : ρ' < 1 := by rw [hρ']; linarith
  set σ := Real.sqrt ρ' with hσ
  have hσ0 : 0 < σ := Real.sqrt_pos.2 hρ'0
  have hσ1 : σ < 1 := by rw [hσ, Real.sqrt_lt' one_pos]; linarith
  have hσ2 : σ ^ 2 = ρ' := Real.sq_sqrt hρ'0.le
  set d0 := Real.sqrt (κ * S) with hd0
  set d1 := Real.sqrt (2 * N1 / (1 - ρ')) with hd1
  have hd00 : 0 ≤ d0 := Real.sqrt_nonneg _
  have hd10 : 0 ≤ d1 := Real.sqrt_nonneg _
  have hd02 : d0 ^ 2 = κ * S := Real.sq_sqrt (by positivity)
  have hd12 : d1 ^ 2 = 2 * N1 / (1 - ρ') := Real.sq_sqrt (div_nonneg (by positivity) (by linarith))
  set c := Real.sqrt k + g with hc
  have hc0 : 0 < c := by positivity
  set D := 1 + (p + 1) * (c * (d0 / σ + d1) + 1) with hD
  have hD0 : 0 < D := by positivity
  refine ⟨g, (C2 + 1) * K * D, σ, hg0, by positivity, hσ0, hσ1, fun δ η raw u0 feed feed' y x y' x' hr hr' hu hraw hη hδ herr => ?_⟩
  have hδ0 : 0 ≤ δ := (abs_nonneg _).trans (hδ 0 ⟨le_rfl, hS.le⟩ 0)
  have htot : ∀ {feed : ℕ → ℝ → Fin (p + 1) → ℝ} {y x : ℕ → ℝ → ColState r p (n + 1)}, Spec.Vessels m P tH S CT raw u0 feed y x →
      ∀ i, Spec.Totals CT Q (x i 0) := by
    intro feed y x hr i
    rw [(hr.vessel i).swap]
    exact totals_stay_var h hA hC hQ (hr.total i) (hr.vessel i).lag (by rw [(hr.vessel i).start]; exact hu) S ⟨hS.le, le_rfl⟩
  have hen := fun i => hρ raw (feed i) (feed' i) u0 (y i) (x i) (y' i) (x' i) (hr.vessel i) (hr'.vessel i) hu hraw (hr.total i) (hr'.total i)
    (hr.cont i) (hr'.cont i)
  -- energy at the swap
  have hEi : ∀ (j : Fin p) i, E (diffExc j (x i 0) (x' i 0)) ≤ κ * S * δ ^ 2 * ρ' ^ i + 2 * N1 / (1 - ρ') * η ^ 2 := by
    intro j i
    have hq : 0 ≤ 2 * N1 / (1 - ρ') * η ^ 2 := mul_nonneg (div_nonneg (by positivity) (by linarith)) (sq_nonneg _)
    induction i with
    | zero =>
      refine ((hen 0 j).1).trans ?_
      rw [pow_zero, mul_one, mul_assoc]
      refine le_trans ?_ (le_add_of_nonneg_right hq)
      refine mul_le_mul_of_nonneg_left ?_ hκ.le
      have hc : ContinuousOn (fun t => (feed 0 t j.succ - feed' 0 t j.succ) ^ 2) (Icc 0 S) :=
        ((continuousOn_pi.1 (hr.cont 0) j.succ).sub (continuousOn_pi.1 (hr'.cont 0) j.succ)).pow 2
      have h1 := intervalIntegral.integral_mono_on (μ := MeasureTheory.volume) hS.le (hc.intervalIntegrable_of_Icc hS.le)
        (continuousOn_const.intervalIntegrable_of_Icc hS.le) (g := fun _ => δ ^ 2) fun t ht => by
          have := hδ t ht j.succ
          beta_reduce
          rw [← sq_abs]
          exact pow_le_pow_left₀ (abs_nonneg _) this 2
      rw [intervalIntegral.integral_const, sub_zero, smul_eq_mul] at h1
      exact h1
    | succ i ih =>
      set e := E (diffExc j (x i 0) (x' i 0)) with he
      have he0 : 0 ≤ e := hEp _
      have hs : Real.sqrt e ^ 2 = e := Real.sq_sqrt he0
      set B := η + g * Real.sqrt e with hB
      have hB0 : 0 ≤ B := by positivity
      have hB2 : B ^ 2 ≤ 2 * η ^ 2 + 2 * g ^ 2 * e := by
        have h1 := sq_nonneg (η - g * Real.sqrt e)
        have h2 : 2 * η ^ 2 + 2 * g ^ 2 * Real.sqrt e ^ 2 - (η + g * Real.sqrt e) ^ 2 = (η - g * Real.sqrt e) ^ 2 := by ring
        rw [hs] at h2
        linarith only [h1, h2]
      set o := fun t => x i t 0 j.succ (Fin.last (n + 1)) - x' i t 0 j.succ (Fin.last (n + 1)) with ho
      have hoc : ContinuousOn o (Icc 0 S) := (continuousOn_pi.1 (near_continuous (hr.vessel i).lead (Fin.last (n + 1))) j.succ).sub
        (continuousOn_pi.1 (near_continuous (hr'.vessel i).lead (Fin.last (n + 1))) j.succ)
      have hfc : ContinuousOn (fun t => ρ * (feed (i + 1) t j.succ - feed' (i + 1) t j.succ) ^ 2) (Icc 0 S) :=
        continuousOn_const.mul (((continuousOn_pi.1 (hr.cont _) j.succ).sub (continuousOn_pi.1 (hr'.cont _) j.succ)).pow 2)
      have hoi : IntervalIntegrable (fun t => (1 + ρ) / 2 * o t ^ 2) MeasureTheory.volume 0 S :=
        (continuousOn_const.mul (hoc.pow 2)).intervalIntegrable_of_Icc hS.le
      have h1 := intervalIntegral.integral_mono_on (μ := MeasureTheory.volume) hS.le (hfc.intervalIntegrable_of_Icc hS.le)
        (hoi.add (g := fun _ => N * B ^ 2) (continuousOn_const.intervalIntegrable_of_Icc hS.le)) fun t ht => by
          have h2 := hN (o t) (feed (i + 1) t j.succ - feed' (i + 1) t j.succ - o t)
          have h3 : (feed (i + 1) t j.succ - feed' (i + 1) t j.succ - o t) ^ 2 ≤ B ^ 2 := by
            rw [← sq_abs]
            exact pow_le_pow_left₀ (abs_nonneg _) (herr i t ht j) 2
          have h4 := mul_le_mul_of_nonneg_left h3 hN0.le
          rw [add_sub_cancel] at h2
          linarith
      rw [intervalIntegral.integral_add hoi (continuousOn_const.intervalIntegrable_of_Icc hS.le), intervalIntegral.integral_const_mul,
        intervalIntegral.integral_const_mul, intervalIntegral.integral_const, sub_zero, smul_eq_mul] at h1
      have h5 := (hen (i + 1) j).1
      have h6 := (hen i j).2.1
      change _ ≤ ρ * e at h6
      change κ * (∫ t in (0 : ℝ)..S, o t ^ 2) ≤ _ at h6
      change E _ ≤ _ at h5
      set I := ∫ t in (0 : ℝ)..S, (feed (i + 1) t j.succ - feed' (i + 1) t j.succ) ^ 2 with hI
      set J := ∫ t in (0 : ℝ)..S, o t ^ 2 with hJ
      have h7 : ρ * (κ * I) ≤ ρ * ((1 + ρ) / 2 * e + N1 * B ^ 2) := by
        have a1 := mul_le_mul_of_nonneg_left h1 hκ.le
        have a2 := mul_le_mul_of_nonneg_left h6 (show (0 : ℝ) ≤ (1 + ρ) / 2 by linarith)
        have a3 : ρ * (N1 * B ^ 2) = κ * (S * (N * B ^ 2)) := by rw [hN1]; field_simp
        calc ρ * (κ * I) = κ * (ρ * I) := by ring
          _ ≤ κ * ((1 + ρ) / 2 * J + S * (N * B ^ 2)) := a1
          _ = (1 + ρ) / 2 * (κ * J) + κ * (S * (N * B ^ 2)) := by ring
          _ ≤ (1 + ρ) / 2 * (ρ * e) + κ * (S * (N * B ^ 2)) := by linarith
          _ = _ := by rw [← a3]; ring
      have h8 := le_of_mul_le_mul_left h7 hρ0
      have h9 : N1 * B ^ 2 ≤ 2 * N1 * η ^ 2 + (1 - ρ) / 4 * e := by
        rw [← hg2]
        have := mul_le_mul_of_nonneg_left hB2 hN1p.le
        linarith
      have h10 : E (diffExc j (x (i + 1) 0) (x' (i + 1) 0)) ≤ ρ' * e + 2 * N1 * η ^ 2 := by
        have : ρ' * e = (1 + ρ) / 2 * e + (1 - ρ) / 4 * e := by rw [hρ']; ring
        linarith
      have h11 := mul_le_mul_of_nonneg_left ih hρ'0.le
      have h12 : ρ' * (2 * N1 / (1 - ρ') * η ^ 2) + 2 * N1 * η ^ 2 = 2 * N1 / (1 - ρ') * η ^ 2 := by
        have hne : (1 - ρ') ≠ 0 := by linarith
        have e3 : 2 * N1 = 2 * N1 / (1 - ρ') * (1 - ρ') := (div_mul_cancel₀ _ hne).symm
        have e4 : 2 * N1 * η ^ 2 = 2 * N1 / (1 - ρ') * (1 - ρ') * η ^ 2 := by rw [← e3]
        rw [e4]
        ring
      rw [pow_succ ρ' i]
      calc _ ≤ _ := h10
        _ ≤ ρ' * (κ * S * δ ^ 2 * ρ' ^ i + 2 * N1 / (1 - ρ') * η ^ 2) + 2 * N1 * η ^ 2 := by linarith
        _ = κ * S * δ ^ 2 * (ρ' ^ i * ρ') + (ρ' * (2 * N1 / (1 - ρ') * η ^ 2) + 2 * N1 * η ^ 2) := by ring
        _ = _ := by rw [h12]
  have hroot : ∀ (j : Fin p) i, Real.sqrt (E (diffExc j (x i 0) (x' i 0))) ≤ d0 * σ ^ i * δ + d1 * η := by
    intro j i
    refine Real.sqrt_le_iff.2 ⟨by positivity, (hEi j i).trans ?_⟩
    have e1 : κ * S * δ ^ 2 * ρ' ^ i = (d0 * σ ^ i * δ) ^ 2 := by
      rw [mul_pow, mul_pow, hd02, ← pow_mul, mul_comm i 2, pow_mul, hσ2]
      ring
    have e2 : 2 * N1 / (1 - ρ') * η ^ 2 = (d1 * η) ^ 2 := by rw [mul_pow, hd12]
    rw [e1, e2]
    have h3 : 0 ≤ d0 * σ ^ i * δ * (d1 * η) := by positivity
    have h4 : (d0 * σ ^ i * δ + d1 * η) ^ 2 = (d0 * σ ^ i * δ) ^ 2 + (d1 * η) ^ 2 + 2 * (d0 * σ ^ i * δ * (d1 * η)) := by ring
    linarith only [h3, h4]
  have hout : ∀ (j : Fin p) i, ∀ t ∈ Icc 0 S, |x i t 0 j.succ (Fin.last (n + 1)) - x' i t 0 j.succ (Fin.last (n + 1))| ≤
      Real.sqrt k * (d0 * σ ^ i * δ + d1 * η) := by
    intro j i t ht
    have h1 : |x i t 0 j.succ (Fin.last (n + 1)) - x' i t 0 j.succ (Fin.last (n + 1))| ≤ ‖diffExc j (x i t) (x' i t)‖ :=
      (norm_snd_le (diffExc j (x i t) (x' i t) (Fin.last n))).trans (norm_le_pi_norm (diffExc j (x i t) (x' i t)) (Fin.last n))
    have h2 := (hkb (diffExc j (x i t) (x' i t))).trans (mul_le_mul_of_nonneg_left ((hen i j).2.2 t ht) hk.le)
    beta_reduce at h2
    have h3 := Real.le_sqrt_of_sq_le h2
    rw [Real.sqrt_mul hk.le] at h3
    exact h1.trans (h3.trans (mul_le_mul_of_nonneg_left (hroot j i) (Real.sqrt_nonneg _)))
  have hfeed : ∀ i, ∀ t ∈ Icc 0 S, ∀ k, |feed i t k - feed' i t k| ≤ D * (σ ^ i * δ + η) := by
    intro i t ht l
    cases i with
    | zero =>
      refine (hδ t ht l).trans ?_
      rw [pow_zero, one_mul]
      have h1 : δ ≤ δ + η := by linarith
      refine h1.trans (le_mul_of_one_le_left (by positivity) ?_)
      rw [hD]
      have : 0 ≤ (p + 1) * (c * (d0 / σ + d1) + 1) := by positivity
      linarith
    | succ i =>
      set b := c * (d0 * σ ^ i * δ + d1 * η) + η with hb
      have hb0 : 0 ≤ b := by positivity
      have hj : ∀ j : Fin p, |feed (i + 1) t j.succ - feed' (i + 1) t j.succ| ≤ b := fun j => by
        have h1 := herr i t ht j
        have h2 := hout j i t ht
        have h3 := mul_le_mul_of_nonneg_left (hroot j i) hg0.le
        have h4 := abs_sub_abs_le_abs_sub (feed (i + 1) t j.succ - feed' (i + 1) t j.succ)
          (x i t 0 j.succ (Fin.last (n + 1)) - x' i t 0 j.succ (Fin.last (n + 1)))
        change _ ≤ η + g * Real.sqrt (E (diffExc j (x i 0) (x' i 0))) at h1
        rw [hb, hc]
        linarith
      refine (abs_first_le hb0 (hr.total _ t ht) (hr'.total _ t ht) hj l).trans ?_
      have e1 : b ≤ (c * (d0 / σ + d1) + 1) * (σ ^ (i + 1) * δ + η) := by
        have e : (c * (d0 / σ + d1) + 1) * (σ ^ (i + 1) * δ + η) =
            b + (c * d1 * (σ ^ (i + 1) * δ) + c * (d0 / σ) * η + σ ^ (i + 1) * δ) := by
          rw [hb, pow_succ]
          field_simp
          ring
        rw [e]
        have : 0 ≤ c * d1 * (σ ^ (i + 1) * δ) + c * (d0 / σ) * η + σ ^ (i + 1) * δ := by positivity
        linarith
      have e2 := mul_le_mul_of_nonneg_left e1 (show (0 : ℝ) ≤ p + 1 by positivity)
      have e3 : 0 ≤ σ ^ (i + 1) * δ + η := by positivity
      rw [hD]
      linarith
  intro i t ht
  have hd0 : 0 ≤ D * (σ ^ i * δ + η) := by positivity
  have n1 : ∀ t ∈ Icc 0 S, Spec.ColNear (K * (D * (σ ^ i * δ + η))) (y i t) (y' i t) := fun t ht => by
    have := hgain 0 (D * (σ ^ i * δ + η)) S (feed i) (feed' i) (y i) (y' i) (hr.total i) (hr'.total i) (hfeed i) (hr.vessel i).lag (hr'.vessel i).lag
      (by rw [(hr.vessel i).start]; exact hu) (by rw [(hr'.vessel i).start]; exact hu)
      (by rw [(hr.vessel i).start, (hr'.vessel i).start]; exact ⟨fun _ _ _ => by simp, fun _ _ _ => by simp⟩) t ht
    rwa [mul_zero, zero_add] at this
  have n2 := hforget (K * (D * (σ ^ i * δ + η))) S raw (x i) (x' i) hraw (hr.vessel i).lead (hr'.vessel i).lead (htot hr i) (htot hr' i)
    (by rw [(hr.vessel i).swap, (hr'.vessel i).swap]; exact n1 S ⟨hS.le, le_rfl⟩) t ht
  have hexp : Real.exp (-(ω2 * t)) ≤ 1 := by rw [Real.exp_le_one_iff]; have := mul_nonneg hω2.le ht.1; linarith
  have hkd : 0 ≤ K * (D * (σ ^ i * δ + η)) := by positivity
  refine ⟨ColNear.mono (n1 t ht) ?_, ColNear.mono n2 ?_⟩
  · have : 0 ≤ C2 * (K * (D * (σ ^ i * δ + η))) := by positivity
    linarith
  · have h1 : C2 * Real.exp (-(ω2 * t)) * (K * (D * (σ ^ i * δ + η))) ≤ C2 * 1 * (K * (D * (σ ^ i * δ + η))) := by gcongr
    linarith

/-- Specification: `f` follows straight lines between the values of `g` at `0, S / N, 2 S / N, ..., S`. -/
def Spec.Lines {ι : Type*} (S : ℝ) (N : ℕ) (f g : ℝ → ι → ℝ) : Prop := ∀ l < N, ∀ s ∈ Icc (0 : ℝ) 1, ∀ k,
  f ((l + s) * (S / N)) k = (1 - s) * g (l * (S / N)) k + s * g ((l + 1) * (S / N)) k

/-- Specification: vessels of which each is fed, as lag vessel, with straight lines between samples of the effluent of the one before as lead vessel. -/
structure Spec.SampledRelay {z : ℕ} (m : ColModel) (P : ColParams r p z) (tH S : ℝ) (N : ℕ) (raw : ℝ → Fin (p + 1) → ℝ) (u0 : ColState r p z)
    (feed : ℕ → ℝ → Fin (p + 1) → ℝ) (y x : ℕ → ℝ → ColState r p z) : Prop where
  vessel : ∀ i, Spec.Vessel m P tH S raw (feed i) u0 (y i) (x i)
  lines : ∀ i, Spec.Lines S N (feed (i + 1)) (fun t k => x i t 0 k (Fin.last z))

theorem lines_at {N : ℕ} (hS : 0 < S) (hN : 0 < N) {t : ℝ} (ht : t ∈ Icc 0 S) : ∃ l < N, ∃ s ∈ Icc (0 : ℝ) 1, t = (l + s) * (S / N) := by
  have hNr : (0 : ℝ) < N := Nat.cast_pos.2 hN
  have hh : 0 < S / N := div_pos hS hNr
  have hq : 0 ≤ t / (S / N) := div_nonneg ht.1 hh.le
  have hq' : t / (S / N) ≤ N := by
    rw [div_le_iff₀ hh, mul_div_cancel₀ S hNr.ne']
    exact ht.2
  have hb : t = t / (S / N) * (S / N) := (div_mul_cancel₀ _ hh.ne').symm
  by_cases hlt : ⌊t / (S / N)⌋₊ < N
  · refine ⟨_, hlt, t / (S / N) - ⌊t / (S / N)⌋₊, ⟨sub_nonneg.2 (Nat.floor_le hq), ?_⟩, ?_⟩
    · have := Nat.lt_floor_add_one (t / (S / N))
      linarith
    · rw [add_sub_cancel]
      exact hb
  · have hN1 : ((N - 1 : ℕ) : ℝ) + 1 = N := by rw [← Nat.cast_add_one, Nat.sub_add_cancel hN]
    have h1 : (N : ℝ) ≤ t / (S / N) := (Nat.cast_le.2 (not_lt.1 hlt)).trans (Nat.floor_le hq)
    refine ⟨N - 1, Nat.sub_lt hN one_pos, 1, ⟨zero_le_one, le_rfl⟩, ?_⟩
    rw [hN1, mul_div_cancel₀ S hNr.ne']
    have h2 := le_antisymm hq' h1
    rwa [div_eq_iff hh.ne', mul_div_cancel₀ S hNr.ne'] at h2

theorem lines_mem {N l : ℕ} (hS : 0 < S) (hl : l ≤ N) (hN : 0 < N) : (l : ℝ) * (S / N) ∈ Icc 0 S := by
  have hNr : (0 : ℝ) < N := Nat.cast_pos.2 hN
  have h1 : (l : ℝ) ≤ N := Nat.cast_le.2 hl
  refine ⟨by positivity, ?_⟩
  rw [← mul_div_assoc, div_le_iff₀ hNr, mul_comm S]
  exact mul_le_mul_of_nonneg_right h1 hS.le

/-- The straight lines as a sum of hats. -/
theorem hat_line {N k : ℕ} (hk : k < N) {s : ℝ} (hs : s ∈ Icc (0 : ℝ) 1) (c : ℕ → ℝ) :
    ∑ l ∈ Finset.range (N + 1), max 0 (1 - |(k + s) - l|) * c l = (1 - s) * c k + s * c (k + 1) := by
  rw [Finset.sum_eq_add k (k + 1) (by omega)]
  · have e1 : |((k : ℝ) + s) - k| = s := by rw [add_sub_cancel_left, abs_of_nonneg hs.1]
    have e2 : |((k : ℝ) + s) - ((k + 1 : ℕ) : ℝ)| = 1 - s := by
      push_cast
      rw [abs_of_nonpos (by linarith [hs.2])]
      ring
    rw [e1, e2, max_eq_right (by linarith [hs.2]), max_eq_right (by linarith [hs.1])]
    ring
  · intro l _ hl
    have h1 : 1 ≤ |((k : ℝ) + s) - l| := by
      rcases Nat.lt_or_ge l k with h | h
      · have : ((l + 1 : ℕ) : ℝ) ≤ k := Nat.cast_le.2 h
        push_cast at this
        exact le_trans (by linarith [hs.1]) (le_abs_self _)
      · have : ((k + 2 : ℕ) : ℝ) ≤ l := Nat.cast_le.2 (by omega)
        push_cast at this
        exact le_trans (by linarith [hs.2]) (neg_le_abs _)
    rw [max_eq_left (by linarith), zero_mul]
  · intro h
    exact absurd (Finset.mem_range.2 (by omega)) h
  · intro h
    exact absurd (Finset.mem_range.2 (by omega)) h

/-- Straight lines between samples, for all times, held at the ends. -/
noncomputable def hats {ι : Type*} (S : ℝ) (N : ℕ) (g : ℝ → ι → ℝ) : ℝ → ι → ℝ := fun t k =>
  ∑ l ∈ Finset.range (N + 1), max 0 (1 - |max 0 (min t S) / (S / N) - l|) * g (l * (S / N)) k

theorem hats_continuous {ι : Type*} {N : ℕ} (g : ℝ → ι → ℝ) : Continuous (hats S N g) := by
  unfold hats
  fun_prop

theorem hats_lines {ι : Type*} {N : ℕ} (hS : 0 < S) (g : ℝ → ι → ℝ) : Spec.Lines S N (hats S N g) g := by
  intro l hl s hs k
  have hN : 0 < N := by omega
  have hNr : (0 : ℝ) < N := Nat.cast_pos.2 hN
  have hh : 0 < S / N := div_pos hS hNr
  have h0 : 0 ≤ ((l : ℝ) + s) * (S / N) := mul_nonneg (by have := hs.1; positivity) hh.le
  have h1 : ((l : ℝ) + s) * (S / N) ≤ S := by
    have h2 : (l : ℝ) + s ≤ (l + 1 : ℕ) := by push_cast; linarith [hs.2]
    exact (mul_le_mul_of_nonneg_right h2 hh.le).trans (lines_mem hS hl hN).2
  have := hat_line hl hs fun l => g (l * (S / N)) k
  beta_reduce at this
  push_cast at this
  unfold hats
  rw [min_eq_left h1, max_eq_right h0, mul_div_cancel_right₀ _ hh.ne', this]

theorem Spec.Lines.eq_hats {ι : Type*} {N : ℕ} (hS : 0 < S) (hN : 0 < N) {f g : ℝ → ι → ℝ} (h : Spec.Lines S N f g) : EqOn f (hats S N g) (Icc 0 S) := by
  intro t ht
  obtain ⟨l, hl, s, hs, rfl⟩ := lines_at hS hN ht
  funext k
  rw [h l hl s hs k, hats_lines hS g l hl s hs k]

theorem Spec.Lines.sum {N : ℕ} (hS : 0 < S) (hN : 0 < N) {f g : ℝ → Fin (p + 1) → ℝ} (h : Spec.Lines S N f g) (hg : ∀ t ∈ Icc 0 S, ∑ k, g t k = CT) :
    ∀ t ∈ Icc 0 S, ∑ k, f t k = CT := by
  intro t ht
  obtain ⟨l, hl, s, hs, rfl⟩ := lines_at hS hN ht
  have h2 := lines_mem (S := S) hS (Nat.succ_le_of_lt hl) hN
  push_cast at h2
  simp only [h l hl s hs]
  rw [Finset.sum_add_distrib, ← Finset.mul_sum, ← Finset.mul_sum, hg _ (lines_mem hS hl.le hN), hg _ h2]
  ring

/-- How far straight lines are from what was sampled. -/
theorem Spec.Lines.near {ι : Type*} {N : ℕ} (hS : 0 < S) (hN : 0 < N) {f g : ℝ → ι → ℝ} (h : Spec.Lines S N f g) {ω : ℝ} {k : ι}
    (hg : ∀ s ∈ Icc 0 S, ∀ t ∈ Icc 0 S, |s - t| ≤ S / N → |g s k - g t k| ≤ ω) : ∀ t ∈ Icc 0 S, |f t k - g t k| ≤ ω := by
  intro t ht
  obtain ⟨l, hl, s, hs, e⟩ := lines_at hS hN ht
  have hNr : (0 : ℝ) < N := Nat.cast_pos.2 hN
  have hh : 0 < S / N := div_pos hS hNr
  have m2 := lines_mem (S := S) hS (Nat.succ_le_of_lt hl) hN
  push_cast at m2
  have h1 := hg _ (lines_mem hS hl.le hN) t ht (by
    rw [e, ← sub_mul, sub_add_cancel_left, abs_mul, abs_neg, abs_of_nonneg hs.1, abs_of_pos hh]
    exact mul_le_of_le_one_left hh.le hs.2)
  have h2 := hg _ m2 t ht (by
    rw [e, ← sub_mul, show (l : ℝ) + 1 - (l + s) = 1 - s by ring, abs_mul, abs_of_nonneg (by linarith [hs.2]), abs_of_pos hh]
    exact mul_le_of_le_one_left hh.le (by linarith [hs.1]))
  have h3 := h l hl s hs k
  rw [← e] at h3
  have e2 : f t k - g t k = (1 - s) * (g (l * (S / N)) k - g t k) + s * (g ((l + 1) * (S / N)) k - g t k) := by rw [h3]; ring
  rw [e2]
  refine (abs_add_le _ _).trans ?_
  rw [abs_mul, abs_mul, abs_of_nonneg hs.1, abs_of_nonneg (show 0 ≤ 1 - s by linarith [hs.2])]
  have a1 := mul_le_mul_of_nonneg_left h1 (show 0 ≤ 1 - s by linarith [hs.2])
  have a2 := mul_le_mul_of_nonneg_left h2 hs.1
  linarith

theorem Spec.SampledRelay.vessels (h : Spec.PlainColumn m P jac tH) (hA : Spec.MovesAll P.Az) (hC : 0 < CT) (hQ : 0 < Q) (hS : 0 < S) {N : ℕ} (hN : 0 < N)
    {raw : ℝ → Fin (p + 1) → ℝ} {u0 : ColState r p (n + 1)} {feed : ℕ → ℝ → Fin (p + 1) → ℝ} {y x : ℕ → ℝ → ColState r p (n + 1)}
    (hr : Spec.SampledRelay m P tH S N raw u0 feed y x) (hu : Spec.Totals CT Q u0) (hraw : ∀ t ∈ Icc 0 S, ∑ i, raw t i = CT)
    (hf : ∀ t ∈ Icc 0 S, ∑ i, feed 0 t i = CT) (hfc : ContinuousOn (feed 0) (Icc 0 S)) : Spec.Vessels m P tH S CT raw u0 feed y x := by
  have hx : ∀ i, (∀ t ∈ Icc 0 S, ∑ k, feed i t k = CT) → Spec.Totals CT Q (x i 0) := fun i hi => by
    rw [(hr.vessel i).swap]
    exact totals_stay_var h hA hC hQ hi (hr.vessel i).lag (by rw [(hr.vessel i).start]; exact hu) S ⟨hS.le, le_rfl⟩
  refine ⟨hr.vessel, fun i => ?_, fun i => ?_⟩
  · induction i with
    | zero => exact hf
    | succ i ih => exact (hr.lines i).sum hS hN fun t ht =>
        (totals_stay_var h hA hC hQ hraw (hr.vessel i).lead (hx i ih) t ht).water _ Fin.last_pos.ne'
  · cases i with
    | zero => exact hfc
    | succ i => exact (hats_continuous _).continuousOn.congr ((hr.lines i).eq_hats hS hN)

/-- How fast the effluents of two vessels under the same water part, by their energy at the swap. -/
theorem vessel_rate (h : Spec.PlainColumn m P jac tH) {G : Fin (n + 1) → Fin (n + 1) → ℝ} (hA : Spec.MovesAll P.Az) (hG : AxialForm P.Az G)
    (hP : PassiveForm P.Az G) (hC : 0 < CT) (hQ : 0 < Q) (hS : 0 < S) : ∃ R : ℝ, 0 < R ∧
    ∀ (raw feed feed' : ℝ → Fin (p + 1) → ℝ) (u0 : ColState r p (n + 1)) (y x y' x' : ℝ → ColState r p (n + 1)),
      Spec.Vessel m P tH S raw feed u0 y x → Spec.Vessel m P tH S raw feed' u0 y' x' → Spec.Totals CT Q u0 →
      (∀ t ∈ Icc 0 S, ∑ i, raw t i = CT) → (∀ t ∈ Icc 0 S, ∑ i, feed t i = CT) → (∀ t ∈ Icc 0 S, ∑ i, feed' t i = CT) →
      ContinuousOn feed (Icc 0 S) → ContinuousOn feed' (Icc 0 S) → ∀ j : Fin p, ∀ s ∈ Icc 0 S, ∀ t ∈ Icc 0 S,
        |(x s 0 j.succ (Fin.last (n + 1)) - x' s 0 j.succ (Fin.last (n + 1))) - (x t 0 j.succ (Fin.last (n + 1)) - x' t 0 j.succ (Fin.last (n + 1)))| ≤
          R * Real.sqrt (cdot (CT / Q) (3 * (1 - P.EBED) / P.EBED) G P.Wr (diffExc j (x 0) (x' 0)) (diffExc j (x 0) (x' 0))) * |s - t| := by
  obtain ⟨ρ, -, -, hρ⟩ := vessel_energy h hA hG hP hC hQ hS
  have ha : 0 < CT / Q := div_pos hC hQ
  have hE0 := h.bed.1
  have hE1 : 0 < 1 - P.EBED := sub_pos.2 h.bed.2
  have hμ : 0 < 3 * (1 - P.EBED) / P.EBED := by positivity
  set E : ColExc r (n + 1) → ℝ := fun u => cdot (CT / Q) (3 * (1 - P.EBED) / P.EBED) G P.Wr u u with hE
  obtain ⟨k, hk, hkb⟩ := quad_dominates (Q := E) (R := fun u : ColExc r (n + 1) => ‖u‖ ^ 2) (by rw [hE]; unfold cdot tdot wdot; fun_prop) (by fun_prop)
    (fun u => (cdot_pos h.grid hG ha hμ u).1) (fun u => (cdot_pos h.grid hG ha hμ u).2) (fun c u => by rw [hE]; beta_reduce; rw [cdot_scale]; ring)
    (fun c u => by beta_reduce; rw [norm_smul, mul_pow, Real.norm_eq_abs, sq_abs])
  set A : Fin p → ColExc r (n + 1) →L[ℝ] ColExc r (n + 1) := fun j => colCL (CT / Q) (plainBeta m P tH (CT / Q) j.succ)
        (tH * P.kL j.succ / P.rb) (3 * (1 - P.EBED) / P.EBED) (P.v * tH / (P.L * P.EBED)) P.Az P.Br P.Wr with hAd
  have hsum : 0 ≤ ∑ j, ‖A j‖ := Finset.sum_nonneg fun j _ => norm_nonneg _
  have hAj : ∀ j, ‖A j‖ ≤ 1 + ∑ j, ‖A j‖ := fun j => by
    have := Finset.single_le_sum (fun j _ => norm_nonneg (A j)) (Finset.mem_univ j)
    linarith
  refine ⟨(1 + ∑ j, ‖A j‖) * Real.sqrt k, by positivity, fun raw feed feed' u0 y x y' x' hv hv' hu hraw hf hf' hfc hfc' j s hs t ht => ?_⟩
  have ht0 : Spec.Totals CT Q (x 0) := by
    rw [hv.swap]
    exact totals_stay_var h hA hC hQ hf hv.lag (by rw [hv.start]; exact hu) S ⟨hS.le, le_rfl⟩
  have ht0' : Spec.Totals CT Q (x' 0) := by
    rw [hv'.swap]
    exact totals_stay_var h hA hC hQ hf' hv'.lag (by rw [hv'.start]; exact hu) S ⟨hS.le, le_rfl⟩
  have hen := (hρ raw feed feed' u0 y x y' x' hv hv' hu hraw hf hf' hfc hfc' j).2.2
  have hd : ∀ t ∈ Icc 0 S, HasDerivWithinAt (fun t => diffExc j (x t) (x' t)) (A j (diffExc j (x t) (x' t))) (Icc 0 S) t := by
    intro t htS
    have := plain_drive h hA hC hQ j hraw hraw hv.lead hv'.lead ht0 ht0' t htS
    rwa [sub_self, zero_smul, sub_zero] at this
  have hb : ∀ t ∈ Icc 0 S, ‖A j (diffExc j (x t) (x' t))‖ ≤ (1 + ∑ j, ‖A j‖) * Real.sqrt k * Real.sqrt (E (diffExc j (x 0) (x' 0))) := by
    intro t htS
    have h2 := (hkb (diffExc j (x t) (x' t))).trans (mul_le_mul_of_nonneg_left (hen t htS) hk.le)
    beta_reduce at h2
    have h3 := Real.le_sqrt_of_sq_le h2
    rw [Real.sqrt_mul hk.le] at h3
    rw [mul_assoc]
    exact ((A j).le_opNorm _).trans (mul_le_mul (hAj j) h3 (norm_nonneg _) (by linarith))
  have h4 := (convex_Icc (0 : ℝ) S).norm_image_sub_le_of_norm_hasDerivWithin_le hd hb ht hs
  refine le_trans ?_ h4
  exact (norm_snd_le ((diffExc j (x s) (x' s) - diffExc j (x t) (x' t)) (Fin.last n))).trans
    (norm_le_pi_norm (diffExc j (x s) (x' s) - diffExc j (x t) (x' t)) (Fin.last n))

/-- C282. With samples close enough together, whatever the first vessels are fed with: two series of passes with straight lines between samples come together
geometrically, and such a series comes within `C ω` of the vessel that feeds itself, where `ω` is how much the effluent of that one changes between samples. -/
theorem c282_sampled (h : Spec.PlainColumn m P jac tH) {leg : Fin n → ℝ} (hleg : Spec.ShJacobiRoots n 1 1 leg)
    (hz : P.Az = aMat (axialNodes leg)) (hC : 0 < CT) (hQ : 0 < Q) (hS : 0 < S) : ∃ (N0 : ℕ) (C σ : ℝ), 0 < N0 ∧ 0 < C ∧ 0 < σ ∧ σ < 1 ∧
    ∀ N, N0 ≤ N → ∀ (δ : ℝ) (raw : ℝ → Fin (p + 1) → ℝ) (u0 : ColState r p (n + 1)) (feed : ℕ → ℝ → Fin (p + 1) → ℝ)
      (y x : ℕ → ℝ → ColState r p (n + 1)), Spec.SampledRelay m P tH S N raw u0 feed y x → Spec.Totals CT Q u0 → (∀ t ∈ Icc 0 S, ∑ i, raw t i = CT) →
      (∀ t ∈ Icc 0 S, ∑ i, feed 0 t i = CT) → ContinuousOn (feed 0) (Icc 0 S) →
      (∀ (feed' : ℕ → ℝ → Fin (p + 1) → ℝ) (y' x' : ℕ → ℝ → ColState r p (n + 1)), Spec.SampledRelay m P tH S N raw u0 feed' y' x' →
        (∀ t ∈ Icc 0 S, ∑ i, feed' 0 t i = CT) → ContinuousOn (feed' 0) (Icc 0 S) → (∀ t ∈ Icc 0 S, ∀ i, |feed 0 t i - feed' 0 t i| ≤ δ) →
        ∀ i, ∀ t ∈ Icc 0 S, Spec.ColNear (C * (σ ^ i * δ)) (y i t) (y' i t) ∧ Spec.ColNear (C * (σ ^ i * δ)) (x i t) (x' i t)) ∧
      ∀ (ω : ℝ) (Y X : ℝ → ColState r p (n + 1)), Spec.Vessel m P tH S raw (fun t k => X t 0 k (Fin.last (n + 1))) u0 Y X →
        (∀ t ∈ Icc 0 S, ∑ i, X t 0 i (Fin.last (n + 1)) = CT) → (∀ t ∈ Icc 0 S, ∀ i, |feed 0 t i - X t 0 i (Fin.last (n + 1))| ≤ δ) →
        (∀ s ∈ Icc 0 S, ∀ t ∈ Icc 0 S, |s - t| ≤ S / N → ∀ i, |X s 0 i (Fin.last (n + 1)) - X t 0 i (Fin.last (n + 1))| ≤ ω) →
        ∀ i, ∀ t ∈ Icc 0 S, Spec.ColNear (C * (σ ^ i * δ + ω)) (y i t) (Y t) ∧ Spec.ColNear (C * (σ ^ i * δ + ω)) (x i t) (X t) := by
  have hg : Spec.AxialGrid (n + 1) P.Az := by rw [hz]; exact .single hleg
  have hA : Spec.MovesAll P.Az := axial_moves hg
  obtain ⟨G, hG, hP⟩ := passive_legendre hleg
  rw [← hz] at hG hP
  obtain ⟨g, C, σ, hg0, hCp, hσ0, hσ1, hrel⟩ := relay_energy (Q := Q) h hg hG hP hC hQ hS
  obtain ⟨R, hR, hrate⟩ := vessel_rate (Q := Q) h hA hG hP hC hQ hS
  obtain ⟨M, hM⟩ := exists_nat_gt (R * S / g)
  refine ⟨M + 1, C, σ, Nat.succ_pos _, hCp, hσ0, hσ1, fun N hN δ raw u0 feed y x hr hu hraw hf hfc => ?_⟩
  have hNp : 0 < N := by omega
  have hNr : (0 : ℝ) < N := Nat.cast_pos.2 hNp
  have hstep : R * (S / N) ≤ g := by
    have h1 : (M : ℝ) ≤ N := Nat.cast_le.2 (by omega)
    have h2 : R * S / g ≤ N := hM.le.trans h1
    rw [div_le_iff₀ hg0] at h2
    rw [← mul_div_assoc, div_le_iff₀ hNr]
    linarith
  have hv := hr.vessels h hA hC hQ hS hNp hu hraw hf hfc
  -- lines through the difference of two effluents
  have hdiff : ∀ {feed' : ℕ → ℝ → Fin (p + 1) → ℝ} {y' x' : ℕ → ℝ → ColState r p (n + 1)}, Spec.Vessels m P tH S CT raw u0 feed' y' x' →
      ∀ i (f : ℝ → Fin (p + 1) → ℝ), Spec.Lines S N f (fun t k => x' i t 0 k (Fin.last (n + 1))) → ∀ t ∈ Icc 0 S, ∀ j : Fin p,
        |feed (i + 1) t j.succ - f t j.succ - (x i t 0 j.succ (Fin.last (n + 1)) - x' i t 0 j.succ (Fin.last (n + 1)))| ≤
          g * Real.sqrt (cdot (CT / Q) (3 * (1 - P.EBED) / P.EBED) G P.Wr (diffExc j (x i 0) (x' i 0)) (diffExc j (x i 0) (x' i 0))) := by
    intro feed' y' x' hv' i f hl t ht j
    have hlin : Spec.Lines S N (fun t k => feed (i + 1) t k - f t k)
        (fun t k => x i t 0 k (Fin.last (n + 1)) - x' i t 0 k (Fin.last (n + 1))) := by
      intro l hl' s hs k
      beta_reduce
      rw [hr.lines i l hl' s hs k, hl l hl' s hs k]
      ring
    refine hlin.near hS hNp (fun s hs t ht hst => ?_) t ht
    refine (hrate raw (feed i) (feed' i) u0 (y i) (x i) (y' i) (x' i) (hv.vessel i) (hv'.vessel i) hu hraw (hv.total i) (hv'.total i)
      (hv.cont i) (hv'.cont i) j s hs t ht).trans ?_
    have h1 := mul_le_mul_of_nonneg_right ((mul_le_mul_of_nonneg_left hst hR.le).trans hstep) (Real.sqrt_nonneg
      (cdot (CT / Q) (3 * (1 - P.EBED) / P.EBED) G P.Wr (diffExc j (x i 0) (x' i 0)) (diffExc j (x i 0) (x' i 0))))
    refine le_trans (le_of_eq ?_) h1
    ring
  refine ⟨fun feed' y' x' hr' hf' hfc' hδ i t ht => ?_, fun ω Y X hV hX hδ hω i t ht => ?_⟩
  · have hv' := hr'.vessels h hA hC hQ hS hNp hu hraw hf' hfc'
    have := hrel δ 0 raw u0 feed feed' y x y' x' hv hv' hu hraw le_rfl hδ (fun i t ht j => by
      rw [zero_add]
      exact hdiff hv' i (feed' (i + 1)) (hr'.lines i) t ht j) i t ht
    rwa [add_zero] at this
  · have hω0 : 0 ≤ ω := (abs_nonneg _).trans (hω 0 ⟨le_rfl, hS.le⟩ 0 ⟨le_rfl, hS.le⟩ (by rw [sub_zero, abs_zero]; positivity) 0)
    have hv' : Spec.Vessels m P tH S CT raw u0 (fun _ t k => X t 0 k (Fin.last (n + 1))) (fun _ => Y) (fun _ => X) :=
      ⟨fun _ => hV, fun _ => hX, fun _ => near_continuous hV.lead (Fin.last (n + 1))⟩
    refine hrel δ ω raw u0 feed _ y x _ _ hv hv' hu hraw hω0 hδ (fun i t ht j => ?_) i t ht
    have hl := hats_lines (N := N) hS fun t k => X t 0 k (Fin.last (n + 1))
    have h1 := hdiff hv' i _ hl t ht j
    have h2 := hl.near hS hNp (k := j.succ) (fun s hs t ht hst => hω s hs t ht hst j.succ) t ht
    have e : feed (i + 1) t j.succ - X t 0 j.succ (Fin.last (n + 1)) - (x i t 0 j.succ (Fin.last (n + 1)) - X t 0 j.succ (Fin.last (n + 1))) =
        (feed (i + 1) t j.succ - hats S N (fun t k => X t 0 k (Fin.last (n + 1))) t j.succ -
          (x i t 0 j.succ (Fin.last (n + 1)) - X t 0 j.succ (Fin.last (n + 1)))) +
        (hats S N (fun t k => X t 0 k (Fin.last (n + 1))) t j.succ - X t 0 j.succ (Fin.last (n + 1))) := by ring
    rw [e]
    refine (abs_add_le _ _).trans ?_
    beta_reduce at h2
    linarith

/-- C282. So the passes come as near as one likes to the vessel that feeds itself, if there are enough samples and enough passes. -/
theorem c282_fine (h : Spec.PlainColumn m P jac tH) {leg : Fin n → ℝ} (hleg : Spec.ShJacobiRoots n 1 1 leg)
    (hz : P.Az = aMat (axialNodes leg)) (hC : 0 < CT) (hQ : 0 < Q) (hS : 0 < S) {raw : ℝ → Fin (p + 1) → ℝ} {u0 : ColState r p (n + 1)}
    (hu : Spec.Totals CT Q u0) (hraw : ∀ t ∈ Icc 0 S, ∑ i, raw t i = CT) {Y X : ℝ → ColState r p (n + 1)}
    (hV : Spec.Vessel m P tH S raw (fun t k => X t 0 k (Fin.last (n + 1))) u0 Y X) (hX : ∀ t ∈ Icc 0 S, ∑ i, X t 0 i (Fin.last (n + 1)) = CT)
    {first : ℝ → Fin (p + 1) → ℝ} (hfc : ContinuousOn first (Icc 0 S)) (hf : ∀ t ∈ Icc 0 S, ∑ i, first t i = CT) {ε : ℝ} (hε : 0 < ε) :
    ∃ N1 I : ℕ, ∀ N, N1 ≤ N → ∀ (feed : ℕ → ℝ → Fin (p + 1) → ℝ) (y x : ℕ → ℝ → ColState r p (n + 1)),
      Spec.SampledRelay m P tH S N raw u0 feed y x → feed 0 = first →
      ∀ i, I ≤ i → ∀ t ∈ Icc 0 S, Spec.ColNear ε (y i t) (Y t) ∧ Spec.ColNear ε (x i t) (X t) := by
  obtain ⟨N0, C, σ, hN0, hCp, hσ0, hσ1, hs⟩ := c282_sampled (Q := Q) h hleg hz hC hQ hS
  have hcont := near_continuous hV.lead (Fin.last (n + 1))
  obtain ⟨δ, hδ⟩ : ∃ δ : ℝ, ∀ t ∈ Icc (0 : ℝ) S, ∀ i, |first t i - X t 0 i (Fin.last (n + 1))| ≤ δ := by
    obtain ⟨b, hb⟩ := isCompact_Icc.exists_bound_of_continuousOn (hfc.sub hcont)
    exact ⟨b, fun t ht i => (norm_le_pi_norm (first t - fun k => X t 0 k (Fin.last (n + 1))) i).trans (hb t ht)⟩
  have huc := isCompact_Icc.uniformContinuousOn_of_continuous hcont
  obtain ⟨η, hη, hηu⟩ := Metric.uniformContinuousOn_iff.1 huc (ε / (2 * C)) (by positivity)
  obtain ⟨M, hM⟩ := exists_nat_gt (S / η)
  have h0 : Filter.Tendsto (fun i : ℕ => C * (σ ^ i * δ)) Filter.atTop (nhds 0) := by
    simpa using ((tendsto_pow_atTop_nhds_zero_of_lt_one hσ0.le hσ1).mul_const δ).const_mul C
  obtain ⟨I, hI⟩ := Filter.eventually_atTop.1 (h0.eventually (gt_mem_nhds (show (0 : ℝ) < ε / 2 by positivity)))
  refine ⟨N0 + M, I, fun N hN feed y x hr hfirst i hi t ht => ?_⟩
  have hNr : (0 : ℝ) < N := Nat.cast_pos.2 (by omega)
  have hstep : S / N < η := by
    have h1 : (M : ℝ) ≤ N := Nat.cast_le.2 (by omega)
    have h2 := hM.trans_le h1
    rw [div_lt_iff₀ hη] at h2
    rw [div_lt_iff₀ hNr]
    linarith
  have hn := (hs N (by omega) δ raw u0 feed y x hr hu hraw (by rw [hfirst]; exact hf) (by rw [hfirst]; exact hfc)).2 (ε / (2 * C)) Y X hV hX
    (by rw [hfirst]; exact hδ) (fun s hs t ht hst k => by
      have h1 := hηu s hs t ht (by rw [Real.dist_eq]; exact hst.trans_lt hstep)
      rw [dist_eq_norm] at h1
      exact (norm_le_pi_norm ((fun k => X s 0 k (Fin.last (n + 1))) - fun k => X t 0 k (Fin.last (n + 1))) k).trans h1.le) i t ht
  have hle : C * (σ ^ i * δ + ε / (2 * C)) ≤ ε := by
    have e : C * (σ ^ i * δ + ε / (2 * C)) = C * (σ ^ i * δ) + ε / 2 := by field_simp
    rw [e]
    linarith [hI i hi]
  exact ⟨ColNear.mono hn.1 hle, ColNear.mono hn.2 hle⟩

/-- The passes with samples exist. -/
theorem sampled_exists (h : Spec.PlainColumn m P jac tH) (hg : Spec.AxialGrid (n + 1) P.Az) (hC : 0 < CT) (hQ : 0 < Q) (hS : 0 < S) {N : ℕ} (hN : 0 < N)
    {raw : ℝ → Fin (p + 1) → ℝ} (hr : Continuous raw) (hs : ∀ t, ∑ i, raw t i = CT) {u0 : ColState r p (n + 1)} (hu : Spec.Totals CT Q u0) :
    ∃ feed y x, feed 0 = raw ∧ Spec.SampledRelay m P tH S N raw u0 feed y x := by
  have hA : Spec.MovesAll P.Az := axial_moves hg
  have hmem : S ∈ Icc (0 : ℝ) S := ⟨hS.le, le_rfl⟩
  have hv : ∀ f : GoodFeed CT p, ∃ y x : ℝ → ColState r p (n + 1), Spec.Vessel m P tH S raw f.1 u0 y x ∧ Spec.Totals CT Q (x 0) := by
    intro f
    obtain ⟨y, hy0, hy, -⟩ := c257_run h hg hC hQ f.2.1 f.2.2 hu
    have ht := totals_stay_var h hA hC hQ (fun t _ => f.2.2 t) (hy S) (by rw [hy0]; exact hu) S hmem
    obtain ⟨x, hx0, hx, -⟩ := c257_run h hg hC hQ hr hs ht
    exact ⟨y, x, ⟨hy0, hy S, hx0, hx S⟩, by rw [hx0]; exact ht⟩
  choose Y X hV hX using hv
  have hsum : ∀ f t, ∑ k, hats S N (fun t k => X f t 0 k (Fin.last (n + 1))) t k = CT := by
    intro f t
    have hm : max 0 (min t S) ∈ Icc 0 S := ⟨le_max_left _ _, max_le hS.le (min_le_right _ _)⟩
    have e : hats S N (fun t k => X f t 0 k (Fin.last (n + 1))) t = hats S N (fun t k => X f t 0 k (Fin.last (n + 1))) (max 0 (min t S)) := by
      unfold hats
      rw [min_eq_left hm.2, max_eq_right hm.1]
    rw [e]
    exact (hats_lines (N := N) hS _).sum hS hN (fun t ht => (totals_stay_var h hA hC hQ (fun t _ => hs t) (hV f).lead (hX f) t ht).water _
      Fin.last_pos.ne') _ hm
  let next : GoodFeed CT p → GoodFeed CT p := fun f => ⟨_, hats_continuous (S := S) (N := N) (fun t k => X f t 0 k (Fin.last (n + 1))), hsum f⟩
  let F : ℕ → GoodFeed CT p := fun i => next^[i] ⟨raw, hr, hs⟩
  have hF : ∀ i, F (i + 1) = next (F i) := fun i => Function.iterate_succ_apply' next i _
  refine ⟨fun i => (F i).1, fun i => Y (F i), fun i => X (F i), rfl, fun i => hV _, fun i => ?_⟩
  beta_reduce
  rw [hF]
  exact hats_lines (N := N) hS fun t k => X (F i) t 0 k (Fin.last (n + 1))

/-- Columns of both models and any numbers of nodes that change places every two time units under a water with three ions that wavers, from fresh resin, with the
raw water itself as first feed: with enough samples the passes exist, and they come within a hundredth of the vessel that feeds itself. -/
example (m : ColModel) (r n : ℕ) : ∃ (P : ColParams r 2 (n + 1)) (u0 : ColState r 2 (n + 1)) (Y X : ℝ → ColState r 2 (n + 1)) (N I : ℕ) (feed : ℕ → ℝ → Fin 3 → ℝ)
    (y x : ℕ → ℝ → ColState r 2 (n + 1)), 0 < N ∧
    Spec.Vessel m P 1 2 (fun t => ![1, 2 + Real.sin t, 3 - Real.sin t]) (fun t k => X t 0 k (Fin.last (n + 1))) u0 Y X ∧
    Spec.SampledRelay m P 1 2 N (fun t => ![1, 2 + Real.sin t, 3 - Real.sin t]) u0 feed y x ∧
    ∀ i, I ≤ i → ∀ t ∈ Icc (0 : ℝ) 2, Spec.ColNear (1 / 100) (x i t) (X t) := by
  obtain ⟨leg, hleg, -⟩ := legendre_exists n
  obtain ⟨jac, B, W, g⟩ := beadGrid_exists r
  let P : ColParams r 2 (n + 1) := ⟨1 / 2, 1, 1, 1, 5, 1 / 2, fun _ => 1, fun _ => 1, fun _ => 2, fun _ => 1, fun _ => 1, aMat (axialNodes leg), B, W⟩
  have hP : Spec.PlainColumn m P jac 1 := ⟨g, by show (0 : ℝ) < 1 / 2 ∧ (1 / 2 : ℝ) < 1; norm_num, ⟨one_pos, one_pos⟩, one_pos, one_pos,
    fun _ _ => ⟨one_pos, one_pos⟩, fun _ => ⟨by show (0 : ℝ) ≤ 1 / 2; norm_num, by show (1 / 2 : ℝ) < 1; norm_num,
      fun _ _ => by show (1 : ℝ) ≤ 2; norm_num⟩, fun _ => rfl, fun _ => by show (1 : ℕ) ≠ 2; decide⟩
  have hC : (0 : ℝ) < 6 := by norm_num
  have hQ : (0 : ℝ) < 5 := by norm_num
  let cin : ℝ → Fin 3 → ℝ := fun t => ![1, 2 + Real.sin t, 3 - Real.sin t]
  have hc : Continuous cin := by
    refine continuous_pi fun i => ?_
    fin_cases i
    · exact continuous_const
    · exact continuous_const.add Real.continuous_sin
    · exact continuous_const.sub Real.continuous_sin
  have hsum : ∀ t, ∑ i, cin t i = 6 := by
    intro t
    simp [cin, Fin.sum_univ_three]
    ring
  have hu : Spec.Totals 6 5 (colInit 5 (cin 0) none : ColState r 2 (n + 1)) :=
    ⟨fun w _ => ((c33_column 5 (cin 0)).2.1 w).trans (hsum 0), (c33_column 5 (cin 0)).1⟩
  obtain ⟨Y, X, hv, hX⟩ := c281_steady (S := 2) hP hleg rfl hC hQ two_pos hc hsum hu
  obtain ⟨N1, I, hN⟩ := c282_fine (S := 2) hP hleg rfl hC hQ two_pos hu (fun t _ => hsum t) hv hX hc.continuousOn (fun t _ => hsum t)
    (show (0 : ℝ) < 1 / 100 by norm_num)
  obtain ⟨feed, y, x, hf, hr⟩ := sampled_exists (S := 2) (N := N1 + 1) hP (.single hleg) hC hQ two_pos (Nat.succ_pos _) hc hsum hu
  exact ⟨P, _, Y, X, N1 + 1, I, feed, y, x, Nat.succ_pos _, hv, hr, fun i hi t ht => (hN (N1 + 1) (Nat.le_succ _) feed y x hr hf i hi t ht).2⟩

end
end WTM
