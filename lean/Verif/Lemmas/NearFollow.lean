import Verif.Lemmas.NearStep

/-! A system near rest whose linear part settles: under each small constant push there is a state of rest, and a run under a push that changes
slowly stays by the state of rest of the moment. -/
set_option autoImplicit false
namespace WTM
open Set Topology Filter

section
variable {E : Type} [NormedAddCommGroup E] [NormedSpace ℝ E] {F : E → E} {p δ K ν : ℝ}

/-- Runs that start near rest come together as far as their pushes agree. -/
def PairClose (F : E → E) (p δ K ν : ℝ) : Prop :=
  ∀ (x y b d : ℝ → E) (T γ : ℝ), (∀ t ∈ Icc 0 T, HasDerivWithinAt x (F (x t) + b t) (Icc 0 T) t) →
    (∀ t ∈ Icc 0 T, HasDerivWithinAt y (F (y t) + d t) (Icc 0 T) t) → (∀ t ∈ Icc 0 T, ‖b t‖ ≤ p * δ) → (∀ t ∈ Icc 0 T, ‖d t‖ ≤ p * δ) →
    0 ≤ γ → (∀ t ∈ Icc 0 T, ‖b t - d t‖ ≤ p * γ) → ‖x 0‖ ≤ δ → ‖y 0‖ ≤ δ →
    ∀ t ∈ Icc 0 T, ‖x t - y t‖ ≤ K * (Real.exp (-(ν * t)) * ‖x 0 - y 0‖ + γ)

theorem run_shift_in {x b : ℝ → E} {s T : ℝ} (hs : 0 ≤ s) (hx : ∀ t ∈ Icc 0 T, HasDerivWithinAt x (F (x t) + b t) (Icc 0 T) t) :
    ∀ t ∈ Icc 0 (T - s), HasDerivWithinAt (fun t => x (t + s)) (F (x (t + s)) + b (t + s)) (Icc 0 (T - s)) t := by
  intro t ht
  have h1 := hx (t + s) ⟨by linarith [ht.1], by linarith [ht.2]⟩
  have h2 : HasDerivWithinAt (fun τ : ℝ => τ + s) 1 (Icc 0 (T - s)) t := ((hasDerivAt_id t).add_const s).hasDerivWithinAt
  have h3 := HasDerivWithinAt.scomp (h := fun τ : ℝ => τ + s) t h1 h2 (fun τ hτ => ⟨by linarith [hτ.1], by linarith [hτ.2]⟩)
  rw [one_smul] at h3
  exact h3

theorem decay_limit (hν : 0 < ν) {a b g : ℝ} (h : ∀ k : ℕ, a ≤ K * (Real.exp (-(ν * k)) * b + g)) : a ≤ K * g := by
  have h3 : Tendsto (fun k : ℕ => ν * (k : ℝ)) atTop atTop := tendsto_natCast_atTop_atTop.const_mul_atTop hν
  have h4 := (((Real.tendsto_exp_neg_atTop_nhds_zero.comp h3).mul_const b).add_const g).const_mul K
  simp only [zero_mul, zero_add] at h4
  exact ge_of_tendsto' h4 h

/-- A state of rest under each small push. -/
theorem near_rest (hν : 0 < ν) (hpair : PairClose F p δ K ν) (hp : 0 ≤ p) {r : ℝ} (hrδ : r ≤ δ) (hK : 0 < K) (hKr : K * r ≤ δ)
    (hcyc : ∀ (b : ℝ → E) (τ β : ℝ), Continuous b → 0 < τ → (∀ t, b (t + τ) = b t) → 0 ≤ β → β ≤ r →
      (∀ t, ‖b t‖ ≤ p * β) → ∃ x : ℝ → E, (∀ T, ∀ t ∈ Icc 0 T, HasDerivWithinAt x (F (x t) + b t) (Icc 0 T) t) ∧
        (∀ t, 0 ≤ t → x (t + τ) = x t) ∧ ∀ t, 0 ≤ t → ‖x t‖ ≤ K * β)
    {b : E} {β : ℝ} (hβ : 0 ≤ β) (hβr : β ≤ r) (hb : ‖b‖ ≤ p * β) : ∃ x : E, F x + b = 0 ∧ ‖x‖ ≤ K * β := by
  obtain ⟨x, hx, hper, hxb⟩ := hcyc (fun _ => b) 1 β continuous_const one_pos (fun _ => rfl) hβ hβr (fun _ => hb)
  have hbδ : ‖b‖ ≤ p * δ := hb.trans (mul_le_mul_of_nonneg_left (hβr.trans hrδ) hp)
  have hxδ : ∀ t, 0 ≤ t → ‖x t‖ ≤ δ := fun t ht => (hxb t ht).trans ((mul_le_mul_of_nonneg_left hβr hK.le).trans hKr)
  have hperk : ∀ (k : ℕ) t, 0 ≤ t → x (t + k) = x t := by
    intro k
    induction k with
    | zero => intro t _; simp
    | succ k ih =>
      intro t ht
      rw [show t + ((k + 1 : ℕ) : ℝ) = t + k + 1 by push_cast; ring, hper _ (by positivity), ih t ht]
  have hconst : ∀ a, 0 ≤ a → x a = x 0 := by
    intro a ha
    have h1 : ‖x a - x 0‖ ≤ K * 0 := decay_limit hν (b := ‖x (0 + a) - x 0‖) fun k => by
      have := hpair (fun t => x (t + a)) x (fun _ => b) (fun _ => b) k 0 (fun t ht => by
          have := run_shift_in (T := k + a) ha (hx (k + a)) t ⟨ht.1, by linarith [ht.2]⟩
          rwa [add_sub_cancel_right] at this) (hx k) (fun _ _ => hbδ) (fun _ _ => hbδ) le_rfl
        (fun _ _ => by simp) (by beta_reduce; exact hxδ _ (by linarith)) (hxδ 0 le_rfl) k ⟨by positivity, le_rfl⟩
      beta_reduce at this
      rwa [add_comm (k : ℝ) a, hperk k a ha, ← zero_add (k : ℝ), hperk k 0 le_rfl, zero_add] at this
    rw [mul_zero] at h1
    exact sub_eq_zero.1 (norm_le_zero_iff.1 h1)
  refine ⟨x 0, ?_, hxb 0 le_rfl⟩
  have h1 := hx 1 0 ⟨le_rfl, zero_le_one⟩
  have h2 : HasDerivWithinAt x 0 (Icc (0 : ℝ) 1) 0 := (hasDerivWithinAt_const (0 : ℝ) (Icc (0 : ℝ) 1) (x 0)).congr (fun t ht => hconst t ht.1) rfl
  exact ((uniqueDiffOn_Icc zero_lt_one) 0 ⟨le_rfl, zero_le_one⟩).eq_deriv _ h1 h2

/-- A run under a push that changes slowly stays by the state of rest of the moment. -/
theorem near_follow (hδ : 0 < δ) (hK : 0 < K) (hν : 0 < ν) (hpair : PairClose F p δ K ν) (h0 : F 0 = 0) (hp : 0 ≤ p) {r : ℝ} (hr : 0 < r) :
    ∃ δ0 K' ν' : ℝ, 0 < δ0 ∧ δ0 ≤ r ∧ 0 < K' ∧ 0 < ν' ∧ ∀ ξ : E → E, (∀ d, ‖d‖ ≤ p * δ0 → F (ξ d) + d = 0 ∧ ‖ξ d‖ ≤ δ) →
      ∀ (x b : ℝ → E) (T κ : ℝ), (∀ t ∈ Icc 0 T, HasDerivWithinAt x (F (x t) + b t) (Icc 0 T) t) → (∀ t ∈ Icc 0 T, ‖b t‖ ≤ p * δ0) → 0 ≤ κ →
        (∀ s ∈ Icc 0 T, ∀ t ∈ Icc 0 T, ‖b s - b t‖ ≤ p * (κ * |s - t|)) → ‖x 0‖ ≤ δ0 →
        ∀ t ∈ Icc 0 T, ‖x t - ξ (b t)‖ ≤ K' * (Real.exp (-(ν' * t)) * ‖x 0 - ξ (b 0)‖ + κ) := by
  set δ0 := min (min δ r) (δ / (2 * K)) with hδ0
  have hδ0p : 0 < δ0 := lt_min (lt_min hδ hr) (by positivity)
  have hδ0δ : δ0 ≤ δ := (min_le_left _ _).trans (min_le_left _ _)
  have hKδ : K * (δ0 + δ0) ≤ δ := by
    have := mul_le_mul_of_nonneg_left (min_le_right (min δ r) (δ / (2 * K))) hK.le
    rw [show K * (δ / (2 * K)) = δ / 2 by field_simp] at this
    linarith
  set τ := Real.log (2 * max K 1) / ν with hτ
  have hm1 : (1 : ℝ) ≤ max K 1 := le_max_right _ _
  have hτ0 : 0 < τ := div_pos (Real.log_pos (by linarith)) hν
  have hhalf : K * Real.exp (-(ν * τ)) ≤ 1 / 2 := by
    rw [hτ, mul_div_cancel₀ _ hν.ne', Real.exp_neg, Real.exp_log (by linarith), ← div_eq_mul_inv, div_le_div_iff₀ (by linarith) (by norm_num)]
    linarith [le_max_left K 1]
  refine ⟨δ0, max (2 * K) (6 * K * τ), Real.log 2 / τ, hδ0p, (min_le_left _ _).trans (min_le_right _ _), lt_max_of_lt_left (by positivity), div_pos (Real.log_pos (by norm_num)) hτ0, ?_⟩
  intro ξ hξ x b T κ hx hb hκ hlip hx0 t ht
  have hpδ : p * δ0 ≤ p * δ := mul_le_mul_of_nonneg_left hδ0δ hp
  have hξrun : ∀ d, ‖d‖ ≤ p * δ0 → ∀ S : ℝ, ∀ t ∈ Icc 0 S, HasDerivWithinAt (fun _ : ℝ => ξ d) (F (ξ d) + d) (Icc 0 S) t := fun d hd S t _ => by
    rw [(hξ d hd).1]
    exact hasDerivWithinAt_const _ _ _
  -- the run stays near rest
  have hstay : ∀ s ∈ Icc 0 T, ‖x s‖ ≤ δ := by
    intro s hs
    have := hpair x (fun _ => 0) b (fun _ => 0) T δ0 hx (fun t _ => by
      rw [h0, add_zero]
      exact hasDerivWithinAt_const _ _ _) (fun t ht => (hb t ht).trans hpδ) (fun _ _ => by rw [norm_zero]; positivity) hδ0p.le
      (fun t ht => by rw [sub_zero]; exact hb t ht) (hx0.trans hδ0δ) (by rw [norm_zero]; exact hδ.le) s hs
    beta_reduce at this
    rw [sub_zero, sub_zero] at this
    refine this.trans (le_trans (mul_le_mul_of_nonneg_left (add_le_add ?_ le_rfl) hK.le) hKδ)
    have h2 : Real.exp (-(ν * s)) ≤ 1 := Real.exp_le_one_iff.2 (by have := mul_nonneg hν.le hs.1; linarith)
    calc Real.exp (-(ν * s)) * ‖x 0‖ ≤ 1 * δ0 := mul_le_mul h2 hx0 (norm_nonneg _) zero_le_one
      _ = δ0 := one_mul _
  -- states of rest of like pushes are alike
  have hξlip : ∀ d d' : E, ‖d‖ ≤ p * δ0 → ‖d'‖ ≤ p * δ0 → ∀ γ, 0 ≤ γ → ‖d - d'‖ ≤ p * γ → ‖ξ d - ξ d'‖ ≤ K * γ := by
    intro d d' hd hd' γ hγ hdd
    refine decay_limit hν (b := ‖ξ d - ξ d'‖) fun k => ?_
    exact hpair (fun _ => ξ d) (fun _ => ξ d') (fun _ => d) (fun _ => d') k γ (hξrun d hd k) (hξrun d' hd' k) (fun _ _ => hd.trans hpδ)
      (fun _ _ => hd'.trans hpδ) hγ (fun _ _ => hdd) (hξ d hd).2 (hξ d' hd').2 k ⟨by positivity, le_rfl⟩
  set D : ℝ → ℝ := fun t => ‖x t - ξ (b t)‖ with hD
  have hD0 : ∀ s, 0 ≤ D s := fun s => norm_nonneg _
  have hstep : ∀ s ∈ Icc 0 T, ∀ a, 0 ≤ a → s + a ≤ T → D (s + a) ≤ K * Real.exp (-(ν * a)) * D s + 2 * K * κ * a := by
    intro s hs a ha hsa
    have hsaT : s + a ∈ Icc 0 T := ⟨by linarith [hs.1], hsa⟩
    have h1 := hpair (fun t => x (t + s)) (fun _ => ξ (b s)) (fun t => b (t + s)) (fun _ => b s) a (κ * a)
      (fun t ht => (run_shift_in hs.1 hx t ⟨ht.1, by linarith [ht.2]⟩).mono (Icc_subset_Icc le_rfl (by linarith)))
      (hξrun (b s) (hb s hs) a) (fun t ht => (hb _ ⟨by linarith [ht.1, hs.1], by linarith [ht.2]⟩).trans hpδ) (fun _ _ => (hb s hs).trans hpδ)
      (by positivity) (fun t ht => (hlip _ ⟨by linarith [ht.1, hs.1], by linarith [ht.2]⟩ s hs).trans (by
        rw [add_sub_cancel_right, abs_of_nonneg ht.1]
        exact mul_le_mul_of_nonneg_left (mul_le_mul_of_nonneg_left ht.2 hκ) hp))
      (by beta_reduce; rw [zero_add]; exact hstay s hs) (hξ _ (hb s hs)).2 a ⟨ha, le_rfl⟩
    beta_reduce at h1
    rw [zero_add, add_comm a s] at h1
    have h2 : ‖ξ (b s) - ξ (b (s + a))‖ ≤ K * (κ * a) := hξlip _ _ (hb s hs) (hb _ hsaT) _ (by positivity) ((hlip s hs _ hsaT).trans (by
      rw [sub_add_cancel_left, abs_neg, abs_of_nonneg ha]))
    have h3 : D (s + a) ≤ ‖x (s + a) - ξ (b s)‖ + ‖ξ (b s) - ξ (b (s + a))‖ := by
      have := norm_add_le (x (s + a) - ξ (b s)) (ξ (b s) - ξ (b (s + a)))
      rwa [sub_add_sub_cancel] at this
    calc D (s + a) ≤ K * (Real.exp (-(ν * a)) * D s + κ * a) + K * (κ * a) := h3.trans (add_le_add h1 h2)
      _ = _ := by ring
  have hiter : ∀ n : ℕ, ∀ t ∈ Icc 0 T, n * τ ≤ t → D t ≤ (1 / 2) ^ n * D (t - n * τ) + 4 * K * κ * τ := by
    intro n
    induction n with
    | zero => intro t _ _; simp; positivity
    | succ n ih =>
      intro t ht hn
      push_cast at hn
      have hnτ : 0 ≤ n * τ := by positivity
      have h1 := ih (t - τ) ⟨by linarith, by linarith [ht.2]⟩ (by linarith)
      have h2 := hstep (t - τ) ⟨by linarith, by linarith [ht.2]⟩ τ hτ0.le (by linarith [ht.2])
      rw [sub_add_cancel] at h2
      have h3 : K * Real.exp (-(ν * τ)) * D (t - τ) ≤ 1 / 2 * D (t - τ) := mul_le_mul_of_nonneg_right hhalf (hD0 _)
      rw [show t - ((n + 1 : ℕ) : ℝ) * τ = t - τ - n * τ by push_cast; ring, pow_succ]
      linarith
  set n := ⌊t / τ⌋₊ with hn
  have hnt : n * τ ≤ t := by
    have := Nat.floor_le (div_nonneg ht.1 hτ0.le)
    rwa [le_div_iff₀ hτ0] at this
  have hnt' : t < (n + 1) * τ := by
    have := Nat.lt_floor_add_one (t / τ)
    rwa [div_lt_iff₀ hτ0] at this
  have h1 := hiter n t ht hnt
  have hnτ : 0 ≤ n * τ := by positivity
  have h2 := hstep 0 ⟨le_rfl, ht.1.trans ht.2⟩ (t - n * τ) (by linarith) (by linarith [ht.2])
  rw [zero_add] at h2
  have h3 : D (t - n * τ) ≤ K * D 0 + 2 * K * κ * τ := by
    have e1 : K * Real.exp (-(ν * (t - n * τ))) * D 0 ≤ K * D 0 := by
      refine mul_le_mul_of_nonneg_right (mul_le_of_le_one_right hK.le (Real.exp_le_one_iff.2 ?_)) (hD0 0)
      have := mul_nonneg hν.le (by linarith : 0 ≤ t - n * τ)
      linarith
    have e2 : 2 * K * κ * (t - n * τ) ≤ 2 * K * κ * τ := mul_le_mul_of_nonneg_left (by linarith) (by positivity)
    linarith
  have h4 : (1 / 2 : ℝ) ^ n ≤ 2 * Real.exp (-(Real.log 2 / τ * t)) := by
    have e1 : (1 / 2 : ℝ) ^ n = Real.exp (-(n * Real.log 2)) := by
      rw [Real.exp_neg, Real.exp_nat_mul, Real.exp_log (by norm_num), one_div, inv_pow]
    have e2 : 2 * Real.exp (-(Real.log 2 / τ * t)) = Real.exp (Real.log 2 - Real.log 2 / τ * t) := by
      rw [sub_eq_add_neg, Real.exp_add, Real.exp_log (by norm_num)]
    rw [e1, e2]
    refine Real.exp_le_exp.2 ?_
    have e3 : Real.log 2 / τ * t = Real.log 2 * (t / τ) := by ring
    have e4 : t / τ ≤ n + 1 := ((div_lt_iff₀ hτ0).2 hnt').le
    have e5 : 0 < Real.log 2 := Real.log_pos (by norm_num)
    rw [e3]
    nlinarith
  have h5 : (1 / 2 : ℝ) ^ n ≤ 1 := pow_le_one₀ (by norm_num) (by norm_num)
  have h6 : (0 : ℝ) ≤ (1 / 2) ^ n := by positivity
  have h7 : (1 / 2 : ℝ) ^ n * D (t - n * τ) ≤ 2 * Real.exp (-(Real.log 2 / τ * t)) * (K * D 0) + 2 * K * κ * τ := by
    have e1 := mul_le_mul_of_nonneg_left h3 h6
    have e2 : (1 / 2 : ℝ) ^ n * (K * D 0) ≤ 2 * Real.exp (-(Real.log 2 / τ * t)) * (K * D 0) := mul_le_mul_of_nonneg_right h4 (mul_nonneg hK.le (hD0 0))
    have e3 : (1 / 2 : ℝ) ^ n * (2 * K * κ * τ) ≤ 1 * (2 * K * κ * τ) := mul_le_mul_of_nonneg_right h5 (by positivity)
    rw [mul_add] at e1
    linarith
  show D t ≤ _
  have h8 : 2 * K * (Real.exp (-(Real.log 2 / τ * t)) * D 0) ≤ max (2 * K) (6 * K * τ) * (Real.exp (-(Real.log 2 / τ * t)) * D 0) :=
    mul_le_mul_of_nonneg_right (le_max_left _ _) (mul_nonneg (Real.exp_pos _).le (hD0 0))
  have h9 : 6 * K * τ * κ ≤ max (2 * K) (6 * K * τ) * κ := mul_le_mul_of_nonneg_right (le_max_right _ _) hκ
  rw [mul_add]
  linarith

end

section
variable {X : Type} [NormedAddCommGroup X] [NormedSpace ℝ X] [FiniteDimensional ℝ X] {n z N : ℕ} {L : MPt X n →L[ℝ] MPt X n} {κ : ℝ}
  {A : Fin (z + 1) → Fin (z + 1) → ℝ} {e : MPt X n →L[ℝ] MPt X n →L[ℝ] ℝ} {h : X →L[ℝ] (Fin n → ℝ)}
  {ℓ : (Fin n → ℝ) →L[ℝ] (Fin N → ℝ)} {lam : Fin N → ℝ} {G : Fin z → Fin z → ℝ}

/-- All this for columns near exhaustion: states of rest `ξ` under small pushes, and runs under slow pushes. -/
theorem mbed_follow {F : MPt X n → MPt X n} (he : PtEnergy L e h ℓ lam) (hA : Spec.MovesAll A) (hG : AxialForm A G) (hκ : 0 < κ)
    (hs : ContDiffAt ℝ 1 F 0) (hF : HasFDerivAt F L 0) (h0 : F 0 = 0) {p : ℝ} (hp : 0 < p) :
    ∃ (δ K ν : ℝ) (ξ : MBed X n z → MBed X n z), 0 < δ ∧ 0 < K ∧ 0 < ν ∧
      (∀ d, ‖d‖ ≤ p * δ → mbedRhs F κ A (ξ d) + d = 0 ∧ ‖ξ d‖ ≤ K * (‖d‖ / p)) ∧
      ∀ (x b : ℝ → MBed X n z) (T c : ℝ), (∀ t ∈ Icc 0 T, HasDerivWithinAt x (mbedRhs F κ A (x t) + b t) (Icc 0 T) t) →
        (∀ t ∈ Icc 0 T, ‖b t‖ ≤ p * δ) → 0 ≤ c → (∀ s ∈ Icc 0 T, ∀ t ∈ Icc 0 T, ‖b s - b t‖ ≤ p * (c * |s - t|)) → ‖x 0‖ ≤ δ →
        ∀ t ∈ Icc 0 T, ‖x t - ξ (b t)‖ ≤ K * (Real.exp (-(ν * t)) * ‖x 0 - ξ (b 0)‖ + c) := by
  obtain ⟨δ, K, ν, r, hδ, hK, hν, hr, hrδ, hKr, hpair, hcyc⟩ := mbed_step (z := z) he hA hG hκ hs hF h0 hp.le
  have hz : mbedRhs F κ A (0 : MBed X n z) = 0 := by
    obtain ⟨δ, hδ, h1⟩ := mbed_small (z := z) (κ := κ) (A := A) hF h0 1 one_pos
    have := h1 0 (by simpa using hδ.le)
    simpa using this
  obtain ⟨δ0, K', ν', hδ0, hδ0r, hK', hν', hfol⟩ := near_follow hδ hK hν hpair hz hp.le hr
  have hrest : ∀ d : MBed X n z, ‖d‖ ≤ p * δ0 → ∃ x, mbedRhs F κ A x + d = 0 ∧ ‖x‖ ≤ K * (‖d‖ / p) := fun d hd =>
    near_rest hν hpair hp.le hrδ hK hKr hcyc (by positivity) (((div_le_iff₀ hp).2 (by rw [mul_comm]; exact hd)).trans hδ0r)
      (by rw [mul_div_cancel₀ _ hp.ne'])
  choose! ξ hξ using hrest
  have hmK : K ≤ max K K' := le_max_left _ _
  refine ⟨δ0, max K K', ν', ξ, hδ0, lt_max_of_lt_left hK, hν', fun d hd => ⟨(hξ d hd).1, (hξ d hd).2.trans ?_⟩, ?_⟩
  · exact mul_le_mul_of_nonneg_right hmK (by positivity)
  · intro x b T c hx hb hc hlip hx0 t ht
    refine (hfol ξ (fun d hd => ⟨(hξ d hd).1, (hξ d hd).2.trans ?_⟩) x b T c hx hb hc hlip hx0 t ht).trans
      (mul_le_mul_of_nonneg_right (le_max_right _ _) (by positivity))
    refine (mul_le_mul_of_nonneg_left ?_ hK.le).trans hKr
    exact ((div_le_iff₀ hp).2 (by rw [mul_comm]; exact hd)).trans hδ0r

end
end WTM
