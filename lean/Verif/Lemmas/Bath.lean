import Mathlib.Tactic
import Mathlib.Analysis.SpecialFunctions.Integrals.Basic
import Mathlib.Analysis.SpecialFunctions.Trigonometric.Deriv
import Verif.Spec.Bath

/-! Modes of the finite bath: integrals, orthogonality, norms and Bessel's inequality. -/
set_option autoImplicit false
namespace WTM
open BigOperators intervalIntegral

noncomputable section

/-- Flux and bath part of a mode. -/
def modeD (p : ℝ) : ℝ := p * Real.cos p - Real.sin p
def modeY (bet p : ℝ) : ℝ := Real.sin p + bet * modeD p

theorem bathMode_iff {kap bet p : ℝ} : Spec.BathMode kap bet p ↔ 0 < p ∧ kap * p ^ 2 * modeY bet p = 3 * modeD p := Iff.rfl

theorem integral_sin_sin {p r : ℝ} (h : p ^ 2 ≠ r ^ 2) :
    ∫ x in (0 : ℝ)..1, Real.sin (p * x) * Real.sin (r * x) =
      (r * Real.sin p * Real.cos r - p * Real.cos p * Real.sin r) / (p ^ 2 - r ^ 2) := by
  have hne : p ^ 2 - r ^ 2 ≠ 0 := sub_ne_zero.2 h
  have hd : ∀ x ∈ Set.uIcc (0 : ℝ) 1, HasDerivAt
      (fun x => (r * (Real.sin (p * x) * Real.cos (r * x)) - p * (Real.cos (p * x) * Real.sin (r * x))) / (p ^ 2 - r ^ 2))
      (Real.sin (p * x) * Real.sin (r * x)) x := by
    intro x _
    have hp : HasDerivAt (fun x : ℝ => p * x) p x := by simpa using (hasDerivAt_id x).const_mul p
    have hr : HasDerivAt (fun x : ℝ => r * x) r x := by simpa using (hasDerivAt_id x).const_mul r
    have := (((hp.sin.mul hr.cos).const_mul r).sub ((hp.cos.mul hr.sin).const_mul p)).div_const (p ^ 2 - r ^ 2)
    refine this.congr_deriv ?_
    field_simp
    ring
  rw [integral_eq_sub_of_hasDerivAt hd (Continuous.intervalIntegrable (by fun_prop) _ _)]
  simp
  ring

theorem integral_sin_sin_self {p : ℝ} (h : p ≠ 0) :
    ∫ x in (0 : ℝ)..1, Real.sin (p * x) * Real.sin (p * x) = 1 / 2 - Real.sin p * Real.cos p / (2 * p) := by
  have hd : ∀ x ∈ Set.uIcc (0 : ℝ) 1, HasDerivAt
      (fun x => x / 2 - Real.sin (p * x) * Real.cos (p * x) / (2 * p)) (Real.sin (p * x) * Real.sin (p * x)) x := by
    intro x _
    have hp : HasDerivAt (fun x : ℝ => p * x) p x := by simpa using (hasDerivAt_id x).const_mul p
    have := ((hasDerivAt_id x).div_const 2).sub ((hp.sin.mul hp.cos).div_const (2 * p))
    refine this.congr_deriv ?_
    field_simp
    linear_combination -Real.sin_sq_add_cos_sq (p * x)
  rw [integral_eq_sub_of_hasDerivAt hd (Continuous.intervalIntegrable (by fun_prop) _ _)]
  simp

theorem integral_x_sin {p : ℝ} (h : p ≠ 0) : ∫ x in (0 : ℝ)..1, x * Real.sin (p * x) = -modeD p / p ^ 2 := by
  have hd : ∀ x ∈ Set.uIcc (0 : ℝ) 1, HasDerivAt
      (fun x => (Real.sin (p * x) - p * (x * Real.cos (p * x))) / p ^ 2) (x * Real.sin (p * x)) x := by
    intro x _
    have hp : HasDerivAt (fun x : ℝ => p * x) p x := by simpa using (hasDerivAt_id x).const_mul p
    have := (hp.sin.sub (((hasDerivAt_id x).mul hp.cos).const_mul p)).div_const (p ^ 2)
    refine this.congr_deriv ?_
    simp only [id_eq]
    field_simp
    ring
  rw [integral_eq_sub_of_hasDerivAt hd (Continuous.intervalIntegrable (by fun_prop) _ _)]
  unfold modeD
  simp

variable {kap bet : ℝ}

/-- Different modes are orthogonal. -/
theorem mode_orth {p r : ℝ} (hp : Spec.BathMode kap bet p) (hr : Spec.BathMode kap bet r) (hne : p ≠ r) :
    (∫ x in (0 : ℝ)..1, Real.sin (p * x) * Real.sin (r * x)) + kap / 3 * modeY bet p * modeY bet r = 0 := by
  obtain ⟨p0, ep⟩ := bathMode_iff.1 hp
  obtain ⟨r0, er⟩ := bathMode_iff.1 hr
  have h2 : p ^ 2 ≠ r ^ 2 := fun h => hne ((pow_left_inj₀ p0.le r0.le (by norm_num)).1 h)
  have hsub : p ^ 2 - r ^ 2 ≠ 0 := sub_ne_zero.2 h2
  rw [integral_sin_sin h2, div_add' _ _ _ hsub, div_eq_zero_iff]
  left
  have e1 : r * Real.sin p * Real.cos r - p * Real.cos p * Real.sin r =
      Real.sin p * modeD r - modeD p * Real.sin r := by unfold modeD; ring
  rw [e1]
  have e2 : kap / 3 * modeY bet p * modeY bet r * (p ^ 2 - r ^ 2) =
      modeY bet r * modeD p - modeY bet p * modeD r := by
    linear_combination (modeY bet r / 3) * ep - (modeY bet p / 3) * er
  rw [e2]
  unfold modeY
  ring

/-- And orthogonal to the uniform state. -/
theorem mode_orth_zero {p : ℝ} (hp : Spec.BathMode kap bet p) :
    (∫ x in (0 : ℝ)..1, x * Real.sin (p * x)) + kap / 3 * modeY bet p = 0 := by
  obtain ⟨p0, ep⟩ := bathMode_iff.1 hp
  rw [integral_x_sin p0.ne', div_add' _ _ _ (by positivity), div_eq_zero_iff]
  left
  linear_combination ep / 3

theorem modeD_ne {p : ℝ} (hk : kap ≠ 0) (hp : Spec.BathMode kap bet p) : modeD p ≠ 0 := by
  obtain ⟨p0, ep⟩ := bathMode_iff.1 hp
  intro h
  rw [h, mul_zero] at ep
  have hy : modeY bet p = 0 := by
    rcases mul_eq_zero.1 ep with h' | h'
    · exact absurd h' (mul_ne_zero hk (by positivity))
    · exact h'
  unfold modeY at hy
  rw [h, mul_zero, add_zero] at hy
  unfold modeD at h
  rw [hy, sub_zero] at h
  have hc : Real.cos p = 0 := by
    rcases mul_eq_zero.1 h with h' | h'
    · exact absurd h' p0.ne'
    · exact h'
  have := Real.sin_sq_add_cos_sq p
  rw [hy, hc] at this
  norm_num at this

/-- Squared norm of a mode. -/
def modeN (kap bet p : ℝ) : ℝ :=
  (∫ x in (0 : ℝ)..1, Real.sin (p * x) * Real.sin (p * x)) + kap / 3 * modeY bet p * modeY bet p

theorem modeY_ne {p : ℝ} (hk : kap ≠ 0) (hp : Spec.BathMode kap bet p) : modeY bet p ≠ 0 := by
  intro h
  have := (bathMode_iff.1 hp).2
  rw [h, mul_zero] at this
  exact modeD_ne hk hp (by linarith)

theorem modeN_pos {p : ℝ} (hk : 0 < kap) (hp : Spec.BathMode kap bet p) : 0 < modeN kap bet p := by
  have h1 : 0 ≤ ∫ x in (0 : ℝ)..1, Real.sin (p * x) * Real.sin (p * x) :=
    integral_nonneg (by norm_num) fun x _ => mul_self_nonneg _
  have h2 : 0 < modeY bet p * modeY bet p := mul_self_pos.2 (modeY_ne hk.ne' hp)
  unfold modeN
  have : 0 < kap / 3 * modeY bet p * modeY bet p := by rw [mul_assoc]; positivity
  linarith

/-- The norm in closed form: with `kap p^2 y = 3 D`. -/
theorem modeN_closed {p : ℝ} (hp : Spec.BathMode kap bet p) :
    18 * modeN kap bet p = modeY bet p ^ 2 *
      (9 + 9 * kap + kap ^ 2 * p ^ 2 - (6 * kap + kap ^ 2) * p ^ 2 * bet + kap ^ 2 * p ^ 4 * bet ^ 2) := by
  obtain ⟨p0, ep⟩ := bathMode_iff.1 hp
  have hs := Real.sin_sq_add_cos_sq p
  unfold modeN
  rw [integral_sin_sin_self p0.ne']
  have hD : modeD p = kap * p ^ 2 * modeY bet p / 3 := by linarith
  have hsin : Real.sin p = modeY bet p * (1 - bet * kap * p ^ 2 / 3) := by
    have : modeY bet p = Real.sin p + bet * modeD p := rfl
    rw [hD] at this
    linear_combination -this
  have hcos : p * Real.cos p = modeY bet p * (1 - bet * kap * p ^ 2 / 3 + kap * p ^ 2 / 3) := by
    have : modeD p = p * Real.cos p - Real.sin p := rfl
    rw [hD] at this
    linear_combination -this + hsin
  set y := modeY bet p
  have hpne := p0.ne'
  have e1 : Real.sin p * Real.cos p / (2 * p) = Real.sin p * (p * Real.cos p) / (2 * p ^ 2) := by field_simp
  rw [e1]
  have hone : p ^ 2 = (p ^ 2) * Real.sin p ^ 2 + (p * Real.cos p) ^ 2 := by
    linear_combination -(p ^ 2) * hs
  have e2 : 18 * (1 / 2 - Real.sin p * (p * Real.cos p) / (2 * p ^ 2) + kap / 3 * y * y) =
      9 * (p ^ 2 - Real.sin p * (p * Real.cos p)) / p ^ 2 + 6 * kap * y ^ 2 := by field_simp; ring
  rw [e2]
  have e3 : p ^ 2 - Real.sin p * (p * Real.cos p) =
      p ^ 2 * Real.sin p ^ 2 + (p * Real.cos p) ^ 2 - Real.sin p * (p * Real.cos p) := by linarith
  rw [e3, hcos, hsin]
  field_simp
  ring

/-- Coefficient of a mode in the batch that starts with clean spheres and unit concentration. -/
def modeA (kap bet p : ℝ) : ℝ := kap / 3 * modeY bet p / modeN kap bet p

/-- Its share of the dissolved concentration. -/
theorem modeA_mul {p : ℝ} (hk : 0 < kap) (hp : Spec.BathMode kap bet p) :
    modeA kap bet p * modeY bet p = 6 * kap /
      (9 + 9 * kap + kap ^ 2 * p ^ 2 - (6 * kap + kap ^ 2) * p ^ 2 * bet + kap ^ 2 * p ^ 4 * bet ^ 2) ∧
    0 < 9 + 9 * kap + kap ^ 2 * p ^ 2 - (6 * kap + kap ^ 2) * p ^ 2 * bet + kap ^ 2 * p ^ 4 * bet ^ 2 := by
  have hN := modeN_pos hk hp
  have hy := modeY_ne hk.ne' hp
  have hc := modeN_closed hp
  have hy2 : 0 < modeY bet p ^ 2 := by positivity
  set Q := 9 + 9 * kap + kap ^ 2 * p ^ 2 - (6 * kap + kap ^ 2) * p ^ 2 * bet + kap ^ 2 * p ^ 4 * bet ^ 2 with hQ
  have hQ0 : 0 < Q := by
    by_contra h
    push Not at h
    have := mul_nonpos_of_nonneg_of_nonpos hy2.le h
    linarith
  refine ⟨?_, hQ0⟩
  unfold modeA
  rw [div_mul_eq_mul_div, div_eq_div_iff hN.ne' hQ0.ne']
  linear_combination (-kap / 3) * hc

/-- Bessel's inequality for finitely many different modes and the uniform state. -/
theorem mode_bessel (hk : 0 < kap) (s : Finset ℝ) (hs : ∀ p ∈ s, Spec.BathMode kap bet p) :
    kap / (1 + kap) + ∑ p ∈ s, modeA kap bet p * modeY bet p ≤ 1 := by
  set a0 := kap / (1 + kap) with ha0
  have hint : ∀ f : ℝ → ℝ, Continuous f → IntervalIntegrable f MeasureTheory.volume 0 1 :=
    fun f hf => hf.intervalIntegrable _ _
  -- the squared profile of the projection
  have h0 : 0 ≤ ∫ x in (0 : ℝ)..1, (a0 * x + ∑ p ∈ s, modeA kap bet p * Real.sin (p * x)) ^ 2 :=
    integral_nonneg (by norm_num) fun x _ => sq_nonneg _
  have hexp : ∀ x : ℝ, (a0 * x + ∑ p ∈ s, modeA kap bet p * Real.sin (p * x)) ^ 2 =
      a0 ^ 2 * x ^ 2 + (∑ p ∈ s, (2 * a0 * modeA kap bet p) * (x * Real.sin (p * x)) +
        ∑ p ∈ s, ∑ r ∈ s, (modeA kap bet p * modeA kap bet r) * (Real.sin (p * x) * Real.sin (r * x))) := by
    intro x
    have e1 : ∑ p ∈ s, (2 * a0 * modeA kap bet p) * (x * Real.sin (p * x)) =
        2 * (a0 * x) * ∑ p ∈ s, modeA kap bet p * Real.sin (p * x) := by
      rw [Finset.mul_sum]; exact Finset.sum_congr rfl fun p _ => by ring
    have e2 : ∑ p ∈ s, ∑ r ∈ s, (modeA kap bet p * modeA kap bet r) * (Real.sin (p * x) * Real.sin (r * x)) =
        (∑ p ∈ s, modeA kap bet p * Real.sin (p * x)) * ∑ p ∈ s, modeA kap bet p * Real.sin (p * x) := by
      rw [Finset.sum_mul_sum]
      exact Finset.sum_congr rfl fun p _ => Finset.sum_congr rfl fun r _ => by ring
    rw [e1, e2]
    ring
  simp only [hexp] at h0
  rw [integral_add (hint _ (by fun_prop)) (hint _ (by fun_prop)),
    integral_add (hint _ (by fun_prop)) (hint _ (by fun_prop)),
    integral_finsetSum (fun p _ => hint _ (by fun_prop)),
    integral_finsetSum (fun p _ => hint _ (by fun_prop))] at h0
  have e3 : ∑ p ∈ s, ∫ x in (0 : ℝ)..1, ∑ r ∈ s, (modeA kap bet p * modeA kap bet r) * (Real.sin (p * x) * Real.sin (r * x)) =
      ∑ p ∈ s, ∑ r ∈ s, (modeA kap bet p * modeA kap bet r) * ∫ x in (0 : ℝ)..1, (Real.sin (p * x) * Real.sin (r * x)) := by
    refine Finset.sum_congr rfl fun p _ => ?_
    rw [integral_finsetSum (fun p _ => hint _ (by fun_prop))]
    exact Finset.sum_congr rfl fun r _ => integral_const_mul _ _
  rw [e3] at h0
  set S := ∑ p ∈ s, modeA kap bet p * modeY bet p with hS
  have e4 : ∑ p ∈ s, ∫ x in (0 : ℝ)..1, (2 * a0 * modeA kap bet p) * (x * Real.sin (p * x)) = -(2 * a0 * (kap / 3) * S) := by
    rw [hS, Finset.mul_sum, ← Finset.sum_neg_distrib]
    refine Finset.sum_congr rfl fun p hp => ?_
    rw [integral_const_mul]
    linear_combination (2 * a0 * modeA kap bet p) * mode_orth_zero (hs p hp)
  have e5 : ∑ p ∈ s, ∑ r ∈ s, (modeA kap bet p * modeA kap bet r) * ∫ x in (0 : ℝ)..1, (Real.sin (p * x) * Real.sin (r * x)) =
      kap / 3 * S - kap / 3 * S * S := by
    have e6 : kap / 3 * S * S = ∑ p ∈ s, ∑ r ∈ s, (modeA kap bet p * modeA kap bet r) * (kap / 3 * modeY bet p * modeY bet r) := by
      rw [hS, mul_assoc, Finset.sum_mul_sum, Finset.mul_sum]
      refine Finset.sum_congr rfl fun p _ => ?_
      rw [Finset.mul_sum]
      exact Finset.sum_congr rfl fun r _ => by ring
    rw [e6, eq_sub_iff_add_eq, ← Finset.sum_add_distrib, hS, Finset.mul_sum]
    refine Finset.sum_congr rfl fun p hp => ?_
    rw [← Finset.sum_add_distrib, Finset.sum_eq_single_of_mem p hp]
    · have hN := (modeN_pos hk (hs p hp)).ne'
      have : modeA kap bet p * modeN kap bet p = kap / 3 * modeY bet p := by
        unfold modeA; exact div_mul_cancel₀ _ hN
      unfold modeN at this
      linear_combination modeA kap bet p * this
    · intro r hr hne
      rw [← mul_add, mode_orth (hs p hp) (hs r hr) (Ne.symm hne), mul_zero]
  have e7 : ∫ x in (0 : ℝ)..1, a0 ^ 2 * x ^ 2 = a0 ^ 2 / 3 := by
    rw [integral_const_mul, integral_pow]; norm_num; ring
  rw [e4, e5, e7] at h0
  have hk1 : 0 < 1 + kap := by linarith
  have ha : a0 * (1 + kap) = kap := div_mul_cancel₀ _ hk1.ne'
  -- `a0^2 = kap a0 (1 - a0)`
  have ha2 : a0 ^ 2 = kap * a0 * (1 - a0) := by linear_combination a0 * ha
  have hfin : 0 ≤ (a0 + S) * (1 - (a0 + S)) := by
    have : 0 ≤ kap / 3 * ((a0 + S) * (1 - (a0 + S))) := by nlinarith [ha2, h0]
    by_contra h
    push Not at h
    have : kap / 3 * ((a0 + S) * (1 - (a0 + S))) < 0 := mul_neg_of_pos_of_neg (by positivity) h
    linarith
  have hS0 : 0 ≤ S := Finset.sum_nonneg fun p hp => by
    rw [(modeA_mul hk (hs p hp)).1]
    have := (modeA_mul hk (hs p hp)).2
    positivity
  have ha00 : 0 < a0 := by positivity
  by_contra h
  push Not at h
  nlinarith

end
end WTM
