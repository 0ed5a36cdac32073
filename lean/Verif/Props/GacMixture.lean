import Verif.Lemmas.MultiBead
import Verif.Props.GacLimit
import Verif.Props.EcmRoot

/-! Property C262: near exhaustion a carbon column with any number of compounds in competition tends to it exponentially, if pore diffusion
makes up for the differences between the surface diffusivities. -/
set_option autoImplicit false
namespace WTM
open BigOperators Set Topology Filter

/-! ### The slope of ideal adsorbed solution theory -/

section slope
variable {n : ℕ}

/-- Relative change of the concentration over a mixture with molar loadings `q` and exponents `ν`, as the loadings change by `u`. -/
noncomputable def mixH (ν q u : Fin n → ℝ) (i : Fin n) : ℝ :=
  u i / q i - (∑ j, u j) / (∑ j, q j) + ν i * (∑ j, ν j * u j) / ∑ j, ν j * q j

variable {ν q : Fin n → ℝ}

theorem mixH_pair (u v : Fin n → ℝ) : ∑ i, mixH ν q u i * v i =
    (∑ i, u i * v i / q i) - (∑ j, u j) * (∑ j, v j) / (∑ j, q j) + (∑ j, ν j * u j) * (∑ j, ν j * v j) / ∑ j, ν j * q j := by
  unfold mixH
  simp only [add_mul, sub_mul, Finset.sum_add_distrib, Finset.sum_sub_distrib, ← Finset.mul_sum]
  congr 1
  · congr 1
    · exact Finset.sum_congr rfl fun i _ => by ring
    · ring
  · rw [mul_div_assoc, Finset.sum_div, Finset.mul_sum]
    exact Finset.sum_congr rfl fun i _ => by ring

theorem mixH_symm (u v : Fin n → ℝ) : ∑ i, mixH ν q u i * v i = ∑ i, mixH ν q v i * u i := by
  rw [mixH_pair, mixH_pair]
  have : ∀ i, u i * v i / q i = v i * u i / q i := fun i => by ring
  simp only [this]
  ring

theorem mixH_square (hq : ∀ i, 0 < q i) [NeZero n] (u : Fin n → ℝ) : ∑ i, mixH ν q u i * u i =
    (∑ i, q i * (u i / q i - (∑ j, u j) / ∑ j, q j) ^ 2) + (∑ j, ν j * u j) ^ 2 / ∑ j, ν j * q j := by
  have hQ : 0 < ∑ j, q j := Finset.sum_pos (fun j _ => hq j) Finset.univ_nonempty
  rw [mixH_pair]
  set U := ∑ j, u j with hU
  set Z := ∑ j, q j with hZ
  have e : ∀ i, q i * (u i / q i - U / Z) ^ 2 = u i * u i / q i - 2 * (U / Z) * u i + (U / Z) ^ 2 * q i := by
    intro i
    have := (hq i).ne'
    field_simp
    ring
  simp only [e, Finset.sum_add_distrib, Finset.sum_sub_distrib, ← Finset.mul_sum]
  rw [← hU, ← hZ]
  field_simp
  ring

theorem mixH_pos (hq : ∀ i, 0 < q i) (hν : ∀ i, 0 < ν i) [NeZero n] (u : Fin n → ℝ) :
    0 ≤ ∑ i, mixH ν q u i * u i ∧ (∑ i, mixH ν q u i * u i = 0 → u = 0) := by
  have hZ : 0 < ∑ j, q j := Finset.sum_pos (fun j _ => hq j) Finset.univ_nonempty
  have hP : 0 < ∑ j, ν j * q j := Finset.sum_pos (fun j _ => mul_pos (hν j) (hq j)) Finset.univ_nonempty
  have hn : ∀ i ∈ Finset.univ, 0 ≤ q i * (u i / q i - (∑ j, u j) / ∑ j, q j) ^ 2 := fun i _ => mul_nonneg (hq i).le (sq_nonneg _)
  have h1 := Finset.sum_nonneg hn
  have h2 : 0 ≤ (∑ j, ν j * u j) ^ 2 / ∑ j, ν j * q j := div_nonneg (sq_nonneg _) hP.le
  rw [mixH_square hq]
  refine ⟨add_nonneg h1 h2, fun h0 => ?_⟩
  have z1 := (Finset.sum_eq_zero_iff_of_nonneg hn).1 (by linarith)
  have z2 : (∑ j, ν j * u j) = 0 := by
    have : (∑ j, ν j * u j) ^ 2 / ∑ j, ν j * q j = 0 := by linarith
    exact pow_eq_zero_iff two_ne_zero |>.1 ((div_eq_zero_iff.1 this).resolve_right hP.ne')
  have h3 : ∀ i, u i = (∑ j, u j) / (∑ j, q j) * q i := by
    intro i
    have h4 := (mul_eq_zero.1 (z1 i (Finset.mem_univ i))).resolve_left (hq i).ne'
    have h5 := sub_eq_zero.1 (pow_eq_zero_iff two_ne_zero |>.1 h4)
    rw [← h5]
    have := (hq i).ne'
    field_simp
  set s := (∑ j, u j) / (∑ j, q j) with hs
  have h6 : s * ∑ j, ν j * q j = 0 := by
    rw [← z2, Finset.mul_sum]
    exact Finset.sum_congr rfl fun j _ => by rw [h3 j]; ring
  have h7 : s = 0 := (mul_eq_zero.1 h6).resolve_right hP.ne'
  funext i
  rw [h3 i, h7, zero_mul]
  rfl

/-- Specification: how much the molar loading of a compound follows its own concentration, all others held: `d q / d (ln c)`. -/
noncomputable def Spec.response (ν q : Fin n → ℝ) (i : Fin n) : ℝ :=
  q i + q i ^ 2 * (1 + (∑ j, ν j ^ 2 * q j) / (∑ j, ν j * q j) - 2 * ν i) / ∑ j, ν j * q j

/-- The change of the loadings as one concentration changes. -/
theorem mixH_solve (hq : ∀ i, 0 < q i) (hν : ∀ i, 0 < ν i) [NeZero n] (i : Fin n) :
    ∃ k : Fin n → ℝ, (∀ j, mixH ν q k j = if j = i then 1 else 0) ∧ k i = Spec.response ν q i := by
  have hZ : 0 < ∑ j, q j := Finset.sum_pos (fun j _ => hq j) Finset.univ_nonempty
  have hP : 0 < ∑ j, ν j * q j := Finset.sum_pos (fun j _ => mul_pos (hν j) (hq j)) Finset.univ_nonempty
  set Z := ∑ j, q j with hZe
  set P := ∑ j, ν j * q j with hPe
  set S := ∑ j, ν j ^ 2 * q j with hSe
  set τ := (q i + q i * S / P - ν i * q i) / P with hτ
  set k : Fin n → ℝ := fun j => q j * ((if j = i then 1 else 0) + τ - ν j * q i / P) with hk
  have hU : ∑ j, k j = τ * Z := by
    have e : ∀ j, k j = (if j = i then q j else 0) + τ * q j - q i / P * (ν j * q j) := by
      intro j
      simp only [hk]
      split <;> ring
    simp only [e, Finset.sum_sub_distrib, Finset.sum_add_distrib, ← Finset.mul_sum, Finset.sum_ite_eq', Finset.mem_univ, if_true]
    rw [← hPe, ← hZe]
    field_simp
    ring
  have hN : ∑ j, ν j * k j = q i := by
    have e : ∀ j, ν j * k j = (if j = i then ν j * q j else 0) + τ * (ν j * q j) - q i / P * (ν j ^ 2 * q j) := by
      intro j
      simp only [hk]
      split <;> ring
    simp only [e, Finset.sum_sub_distrib, Finset.sum_add_distrib, ← Finset.mul_sum, Finset.sum_ite_eq', Finset.mem_univ, if_true]
    rw [← hPe, ← hSe, hτ]
    field_simp
    ring
  refine ⟨k, fun j => ?_, ?_⟩
  · unfold mixH
    rw [hU, hN, ← hZe, ← hPe]
    have e : k j / q j = (if j = i then 1 else 0) + τ - ν j * q i / P := by
      simp only [hk]
      exact mul_div_cancel_left₀ _ (hq j).ne'
    rw [e, mul_div_cancel_right₀ _ hZ.ne']
    ring
  · unfold Spec.response
    rw [← hPe, ← hSe]
    simp only [hk, if_true, hτ]
    field_simp
    ring

theorem response_bound (hq : ∀ i, 0 < q i) (hν : ∀ i, 0 < ν i) [NeZero n] (i : Fin n) : 0 < Spec.response ν q i ∧
    ∀ u : Fin n → ℝ, u i ^ 2 ≤ Spec.response ν q i * ∑ j, mixH ν q u j * u j := by
  obtain ⟨k, hk, hki⟩ := mixH_solve hq hν i
  have hp : ∀ u : Fin n → ℝ, ∑ j, mixH ν q k j * u j = u i := by
    intro u
    simp [hk]
  have h1 := mixH_pos hq hν k
  rw [hp k, hki] at h1
  have h2 : Spec.response ν q i ≠ 0 := by
    intro h0
    have h3 := h1.2 h0
    have h4 := hk i
    rw [h3] at h4
    simp [mixH] at h4
  have h5 := lt_of_le_of_ne h1.1 h2.symm
  refine ⟨h5, fun u => ?_⟩
  set s := u i / Spec.response ν q i with hs
  have h6 := (mixH_pos hq hν (u - s • k)).1
  have e1 : ∑ j, mixH ν q (u - s • k) j * (u - s • k) j = (∑ j, mixH ν q u j * u j) - 2 * s * (∑ j, mixH ν q k j * u j) +
      s ^ 2 * ∑ j, mixH ν q k j * k j := by
    have l : ∀ j, mixH ν q (u - s • k) j = mixH ν q u j - s * mixH ν q k j := by
      intro j
      unfold mixH
      simp only [Pi.sub_apply, Pi.smul_apply, smul_eq_mul, mul_sub, Finset.sum_sub_distrib]
      have a1 : ∑ j, s * k j = s * ∑ j, k j := (Finset.mul_sum _ _ _).symm
      have a2 : ∑ j, ν j * (s * k j) = s * ∑ j, ν j * k j := by
        rw [Finset.mul_sum]
        exact Finset.sum_congr rfl fun j _ => by ring
      rw [a1, a2]
      ring
    have l2 : ∑ j, mixH ν q u j * k j = ∑ j, mixH ν q k j * u j := mixH_symm u k
    have l3 : ∀ j, mixH ν q (u - s • k) j * (u - s • k) j = mixH ν q u j * u j - s * (mixH ν q u j * k j) - s * (mixH ν q k j * u j) +
        s ^ 2 * (mixH ν q k j * k j) := by
      intro j
      rw [l]
      simp only [Pi.sub_apply, Pi.smul_apply, smul_eq_mul]
      ring
    simp only [l3, Finset.sum_add_distrib, Finset.sum_sub_distrib, ← Finset.mul_sum]
    rw [l2]
    ring
  rw [e1, hp, hp, hki] at h6
  have e2 : -(2 * s * u i) + s ^ 2 * Spec.response ν q i = -(u i ^ 2 / Spec.response ν q i) := by
    rw [hs]
    field_simp
    ring
  have h7 : u i ^ 2 / Spec.response ν q i ≤ ∑ j, mixH ν q u j * u j := by linarith
  rw [div_le_iff₀ h5] at h7
  linarith

/-- Specification: pore diffusion, `p` per compound, makes up for the differences between the surface diffusivities `d`. -/
def Spec.Levels (ν q p d : Fin n → ℝ) : Prop :=
  (∀ i, 0 ≤ p i) ∧ ∃ (b : ℝ) (t : Fin n → ℝ), (∀ i, 0 ≤ t i) ∧ ∑ i, t i < b ∧ ∀ i, (d i - b) ^ 2 * Spec.response ν q i ≤ 4 * p i * t i

theorem levels_loses (hq : ∀ i, 0 < q i) (hν : ∀ i, 0 < ν i) [NeZero n] {p d : Fin n → ℝ} (h : Spec.Levels ν q p d) {u : Fin n → ℝ}
    (hu : u ≠ 0) : 0 < ∑ i, (p i * mixH ν q u i ^ 2 + d i * (mixH ν q u i * u i)) := by
  obtain ⟨hp, b, t, ht, hb, hl⟩ := h
  set Q := ∑ j, mixH ν q u j * u j with hQ
  have hQ0 : 0 < Q := lt_of_le_of_ne (mixH_pos hq hν u).1 fun h0 => hu ((mixH_pos hq hν u).2 h0.symm)
  have key : ∀ i, b * (mixH ν q u i * u i) - t i * Q ≤ p i * mixH ν q u i ^ 2 + d i * (mixH ν q u i * u i) := by
    intro i
    obtain ⟨r0, r1⟩ := response_bound hq hν i
    have r2 := r1 u
    rw [← hQ] at r2
    have r3 : (d i - b) ^ 2 * u i ^ 2 ≤ 4 * p i * t i * Q := by
      have s1 := mul_le_mul_of_nonneg_left r2 (sq_nonneg (d i - b))
      have s2 := mul_le_mul_of_nonneg_right (hl i) hQ0.le
      linarith
    rcases (hp i).eq_or_lt with h0 | h0
    · have s0 : (d i - b) ^ 2 = 0 := by
        have := hl i
        rw [← h0] at this
        nlinarith [sq_nonneg (d i - b)]
      have s1 : d i = b := by linarith [pow_eq_zero_iff two_ne_zero |>.1 s0]
      rw [s1, ← h0]
      have := mul_nonneg (ht i) hQ0.le
      nlinarith
    · have s1 : 0 ≤ 4 * p i * (p i * mixH ν q u i ^ 2 + (d i - b) * (mixH ν q u i * u i) + t i * Q) := by
        have : 4 * p i * (p i * mixH ν q u i ^ 2 + (d i - b) * (mixH ν q u i * u i) + t i * Q) =
            (2 * p i * mixH ν q u i + (d i - b) * u i) ^ 2 + (4 * p i * t i * Q - (d i - b) ^ 2 * u i ^ 2) := by ring
        rw [this]
        exact add_nonneg (sq_nonneg _) (by linarith)
      have s2 := nonneg_of_mul_nonneg_right s1 (by positivity : 0 < 4 * p i)
      linarith
  have hsum := Finset.sum_le_sum fun i (_ : i ∈ Finset.univ) => key i
  rw [Finset.sum_sub_distrib, ← Finset.mul_sum, ← hQ, ← Finset.sum_mul] at hsum
  have : 0 < (b - ∑ i, t i) * Q := mul_pos (by linarith) hQ0
  linarith

end slope

/-! ### Columns -/

section
variable {n r z : ℕ}

/-- Specification: no loading of a compound is more than `ε` from its value in `q`, and no concentration below the inlet more than `ε` from
its value in `c`. -/
def Spec.MixWithin (c q : Fin n → ℝ) (ε : ℝ) (u : GacState n r z) : Prop :=
  (∀ i (k : Fin (r + 1)) w, |u i k.castSucc w - q i| ≤ ε) ∧ ∀ i w, w ≠ 0 → |u i (Fin.last (r + 1)) w - c i| ≤ ε

/-- Specification: a carbon column with any compounds on the grids of the code, under constant influents `c`, fouling factors `fo` and
tortuosity factors `fa`. The loadings `q`, in the units of the code, are in equilibrium with the influent by ideal adsorbed solution theory. -/
structure Spec.MixSetting (D : GacDim n r z) (jac : Fin r → ℝ) (c fo fa q : Fin n → ℝ) : Prop where
  ym : ∀ i, 0 < D.ym i
  xn : ∀ i, 0 < D.xn i
  stdv : ∀ i, 0 < D.stdv i
  dgI : ∀ i, 0 < D.dgI i
  flow : 0 < D.dg1
  beads : Spec.BeadGrid jac D.br D.wr
  axial : Spec.AxialGrid z D.az
  influent : ∀ i, 0 < c i
  fouling : ∀ i, 0 < fo i
  loads : ∀ i, 0 < q i
  spent : Spec.Iast D.ym D.xn (fun i => D.ym i * q i) (fun i => c i / fo i)
  levels : Spec.Levels (fun i => 1 / D.xn i) (fun i => D.ym i * q i) (fun i => D.bedp i * fa i * (D.ym i * c i)) D.beds

variable {D : GacDim n r z} {jac : Fin r → ℝ} {c fo fa q : Fin n → ℝ}

theorem mix_pore_nonneg {ym xn foul y : Fin n → ℝ} (hym : ∀ j, 0 < ym j) (hxn : ∀ j, 0 < xn j) (i : Fin n) (hf : 0 ≤ foul i) :
    0 ≤ cpore ym xn foul y i := by
  rw [cpore_closed hym hxn]
  have hnn : ∀ j, 0 ≤ max (ym j * y j) 0 := fun j => le_max_right _ _
  refine mul_nonneg hf (mul_nonneg (div_nonneg (hnn i) (Finset.sum_nonneg fun j _ => hnn j)) (Real.rpow_nonneg (Finset.sum_nonneg fun j _ => ?_) _))
  exact mul_nonneg (div_nonneg (div_pos (hxn i) (hym i)).le (hxn j).le) (hnn j)

theorem mix_poreAt (h : Spec.MixSetting D jac c fo fa q) (u : GacState n r z) (i : Fin n) (k : Fin (r + 1)) (w : Fin (z + 1)) :
    cporeAt D fo u i k w = cpore D.ym D.xn fo (fun j => u j k.castSucc w) i := by
  unfold cporeAt
  simp only
  rw [if_neg]
  rintro ⟨-, h0⟩
  exact absurd h0 (not_lt.2 (mix_pore_nonneg h.ym h.xn i (h.fouling i).le))

/-- The isotherm counted from exhaustion. -/
noncomputable def mixIso (D : GacDim n r z) (c fo q : Fin n → ℝ) (x : Fin n → ℝ) (i : Fin n) : ℝ := cpore D.ym D.xn fo (q + x) i - c i

/-- Its formula where all loadings are positive. -/
noncomputable def mixForm (D : GacDim n r z) (c fo q : Fin n → ℝ) (x : Fin n → ℝ) (i : Fin n) : ℝ :=
  fo i * (D.ym i * (q i + x i) / (∑ k, D.ym k * (q k + x k)) *
    (D.xn i / D.ym i * ∑ k, 1 / D.xn k * (D.ym k * (q k + x k))) ^ (1 / D.xn i)) - c i

theorem mixIso_form [NeZero n] (h : Spec.MixSetting D jac c fo fa q) : ∀ᶠ x in 𝓝 (0 : Fin n → ℝ), mixIso D c fo q x = mixForm D c fo q x := by
  have h1 : ∀ᶠ x in 𝓝 (0 : Fin n → ℝ), ∀ i, 0 < q i + x i := by
    refine eventually_all.2 fun i => ?_
    have hc : ContinuousAt (fun x : Fin n → ℝ => q i + x i) 0 := (continuous_const.add (continuous_apply i)).continuousAt
    exact hc.eventually (lt_mem_nhds (by simpa using h.loads i))
  filter_upwards [h1] with x hx
  funext i
  unfold mixIso mixForm
  rw [cpore_eq (y := q + x) h.ym h.xn (fun i => (hx i).le) (hx 0) i]
  rfl

theorem mix_zero [NeZero n] (h : Spec.MixSetting D jac c fo fa q) : mixIso D c fo q 0 = 0 := by
  have h1 := (mixIso_form h).self_of_nhds
  rw [h1]
  funext i
  have hs : 0 < ∑ j, D.ym j * q j := Finset.sum_pos (fun j _ => mul_pos (h.ym j) (h.loads j)) Finset.univ_nonempty
  have h2 := (iast_converse h.ym h.xn hs h.spent i).1
  unfold iastC at h2
  have e : (∑ j, 1 / D.xn j * (D.ym j * q j)) / (1 / D.xn i * D.ym i) = D.xn i / D.ym i * ∑ j, 1 / D.xn j * (D.ym j * q j) := by
    have := (h.xn i).ne'
    have := (h.ym i).ne'
    field_simp
  rw [e] at h2
  show fo i * (D.ym i * (q i + 0) / (∑ k, D.ym k * (q k + 0)) * (D.xn i / D.ym i * ∑ k, 1 / D.xn k * (D.ym k * (q k + 0))) ^ (1 / D.xn i)) - c i = 0
  simp only [add_zero]
  rw [← h2]
  have := (h.fouling i).ne'
  field_simp
  ring

theorem mix_smooth [NeZero n] (h : Spec.MixSetting D jac c fo fa q) : ContDiffAt ℝ 1 (mixIso D c fo q) 0 := by
  have hs : 0 < ∑ j, D.ym j * q j := Finset.sum_pos (fun j _ => mul_pos (h.ym j) (h.loads j)) Finset.univ_nonempty
  have hp : 0 < ∑ j, 1 / D.xn j * (D.ym j * q j) :=
    Finset.sum_pos (fun j _ => mul_pos (one_div_pos.2 (h.xn j)) (mul_pos (h.ym j) (h.loads j))) Finset.univ_nonempty
  refine ContDiffAt.congr_of_eventuallyEq ?_ (mixIso_form h)
  refine contDiffAt_pi.2 fun i => ?_
  unfold mixForm
  have c1 : ContDiffAt ℝ 1 (fun x : Fin n → ℝ => D.ym i * (q i + x i)) 0 := by fun_prop
  have c2 : ContDiffAt ℝ 1 (fun x : Fin n → ℝ => ∑ k, D.ym k * (q k + x k)) 0 := by fun_prop
  have c3 : ContDiffAt ℝ 1 (fun x : Fin n → ℝ => D.xn i / D.ym i * ∑ k, 1 / D.xn k * (D.ym k * (q k + x k))) 0 := by fun_prop
  have n2 : (∑ k, D.ym k * (q k + (0 : Fin n → ℝ) k)) ≠ 0 := by simpa using hs.ne'
  have n3 : D.xn i / D.ym i * ∑ k, 1 / D.xn k * (D.ym k * (q k + (0 : Fin n → ℝ) k)) ≠ 0 := by
    have := mul_pos (div_pos (h.xn i) (h.ym i)) hp
    simpa using this.ne'
  exact ((contDiffAt_const.mul ((c1.div c2 n2).mul (c3.rpow_const_of_ne n3))).sub contDiffAt_const)

/-- The slope of the isotherm at exhaustion. -/
theorem mix_slope [NeZero n] (h : Spec.MixSetting D jac c fo fa q) (x : Fin n → ℝ) (i : Fin n) :
    fderiv ℝ (mixIso D c fo q) 0 x i = c i * mixH (fun i => 1 / D.xn i) (fun i => D.ym i * q i) (fun i => D.ym i * x i) i := by
  have hs : 0 < ∑ j, D.ym j * q j := Finset.sum_pos (fun j _ => mul_pos (h.ym j) (h.loads j)) Finset.univ_nonempty
  have hp : 0 < ∑ j, 1 / D.xn j * (D.ym j * q j) :=
    Finset.sum_pos (fun j _ => mul_pos (one_div_pos.2 (h.xn j)) (mul_pos (h.ym j) (h.loads j))) Finset.univ_nonempty
  have hy := h.ym i
  have hxn := h.xn i
  have hq := h.loads i
  have hd : HasFDerivAt (mixForm D c fo q) (fderiv ℝ (mixIso D c fo q) 0) 0 :=
    ((mix_smooth h).differentiableAt (by norm_num)).hasFDerivAt.congr_of_eventuallyEq ((mixIso_form h).mono fun _ e => e.symm)
  -- along a line
  have hl : HasDerivAt (fun t : ℝ => t • x) x 0 := by
    simpa using (hasDerivAt_id (0 : ℝ)).smul_const x
  have hd' : HasFDerivAt (mixForm D c fo q) (fderiv ℝ (mixIso D c fo q) 0) ((0 : ℝ) • x) := by rw [zero_smul]; exact hd
  have h1 := hasDerivAt_pi.1 (hd'.comp_hasDerivAt (0 : ℝ) hl) i
  have l1 : ∀ k, HasDerivAt (fun t : ℝ => D.ym k * (q k + t * x k)) (D.ym k * x k) 0 := by
    intro k
    have := (((hasDerivAt_id (0 : ℝ)).mul_const (x k)).const_add (q k)).const_mul (D.ym k)
    rw [one_mul] at this
    exact this
  have l2 : HasDerivAt (fun t : ℝ => ∑ k, D.ym k * (q k + t * x k)) (∑ k, D.ym k * x k) 0 := HasDerivAt.fun_sum fun k _ => l1 k
  have l3 : HasDerivAt (fun t : ℝ => D.xn i / D.ym i * ∑ k, 1 / D.xn k * (D.ym k * (q k + t * x k)))
      (D.xn i / D.ym i * ∑ k, 1 / D.xn k * (D.ym k * x k)) 0 :=
    (HasDerivAt.fun_sum fun k _ => (l1 k).const_mul (1 / D.xn k)).const_mul _
  have v1 : (fun t : ℝ => D.ym i * (q i + t * x i)) 0 = D.ym i * q i := by simp
  have v2 : (fun t : ℝ => ∑ k, D.ym k * (q k + t * x k)) 0 = ∑ k, D.ym k * q k := by simp
  have v3 : (fun t : ℝ => D.xn i / D.ym i * ∑ k, 1 / D.xn k * (D.ym k * (q k + t * x k))) 0 =
      D.xn i / D.ym i * ∑ k, 1 / D.xn k * (D.ym k * q k) := by simp
  have b0 : 0 < D.xn i / D.ym i * ∑ k, 1 / D.xn k * (D.ym k * q k) := mul_pos (div_pos hxn hy) hp
  have l4 := (((l1 i).fun_div l2 (by rw [show ∑ k, D.ym k * (q k + 0 * x k) = ∑ k, D.ym k * q k by simp]; exact hs.ne')).fun_mul
    (l3.rpow_const (p := 1 / D.xn i) (Or.inl (v3.trans_ne b0.ne')))).const_mul (fo i) |>.sub_const (c i)
  have h2 := h1.unique (f := fun t : ℝ => mixForm D c fo q (t • x) i) l4
  rw [h2]
  simp only [zero_mul, add_zero]
  have hc : c i = fo i * (D.ym i * q i / (∑ k, D.ym k * q k) * (D.xn i / D.ym i * ∑ k, 1 / D.xn k * (D.ym k * q k)) ^ (1 / D.xn i)) := by
    have := congrFun (mix_zero h) i
    rw [(mixIso_form h).self_of_nhds] at this
    unfold mixForm at this
    simp only [Pi.zero_apply, add_zero] at this
    linarith
  rw [Real.rpow_sub_one b0.ne']
  unfold mixH
  rw [hc]
  set Z := ∑ k, D.ym k * q k
  set P := ∑ k, 1 / D.xn k * (D.ym k * q k)
  set E := (D.xn i / D.ym i * P) ^ (1 / D.xn i)
  field_simp

theorem mix_comp [NeZero n] (h : Spec.MixSetting D jac c fo fa q) :
    CompSlope (fderiv ℝ (mixIso D c fo q) 0) (fun i => D.ym i / c i) (fun i => D.bedp i * fa i) D.beds := by
  have hν : ∀ i, 0 < (fun i => 1 / D.xn i) i := fun i => one_div_pos.2 (h.xn i)
  have hz : ∀ i, 0 < (fun i => D.ym i * q i) i := fun i => mul_pos (h.ym i) (h.loads i)
  have hne : ∀ x : Fin n → ℝ, x ≠ 0 → (fun i => D.ym i * x i) ≠ 0 := by
    intro x hx h0
    refine hx (funext fun i => ?_)
    exact (mul_eq_zero.1 (congrFun h0 i)).resolve_left (h.ym i).ne'
  have e : ∀ (x y : Fin n → ℝ) i, D.ym i / c i * (fderiv ℝ (mixIso D c fo q) 0 x i * y i) =
      mixH (fun i => 1 / D.xn i) (fun i => D.ym i * q i) (fun i => D.ym i * x i) i * (D.ym i * y i) := by
    intro x y i
    rw [mix_slope h]
    have := (h.influent i).ne'
    field_simp
  refine ⟨fun i => div_pos (h.ym i) (h.influent i), fun x y => ?_, fun x hx => ?_, fun x hx => ?_⟩
  · simp only [e]
    exact mixH_symm (fun i => D.ym i * x i) (fun i => D.ym i * y i)
  · simp only [e]
    have := mixH_pos hz hν (fun i => D.ym i * x i)
    exact lt_of_le_of_ne this.1 fun h0 => hne x hx (this.2 h0.symm)
  · have h1 := levels_loses hz hν h.levels (hne x hx)
    refine lt_of_lt_of_le h1 (le_of_eq (Finset.sum_congr rfl fun i _ => ?_))
    rw [mix_slope h]
    have := (h.influent i).ne'
    field_simp

/-- Excesses over the exhausted column. -/
noncomputable def mixExc (c q : Fin n → ℝ) (u : GacState n r z) : MBed (MBead n r) n z :=
  (fun i k => u i k.castSucc 0 - q i, fun w => (fun i k => u i k.castSucc w.succ - q i, fun i => u i (Fin.last (r + 1)) w.succ - c i))

theorem mixExc_norm {ε : ℝ} (hε : 0 ≤ ε) {u : GacState n r z} : ‖mixExc c q u‖ ≤ ε ↔ Spec.MixWithin c q ε u := by
  unfold Spec.MixWithin
  rw [norm_prod_le_iff, pi_norm_le_iff_of_nonneg hε, pi_norm_le_iff_of_nonneg hε]
  simp only [norm_prod_le_iff, pi_norm_le_iff_of_nonneg hε, mixExc, Real.norm_eq_abs]
  constructor
  · rintro ⟨h1, h2⟩
    refine ⟨fun i k w => ?_, fun i w hw => ?_⟩
    · exact Fin.cases (h1 i k) (fun w => (h2 w).1 i k) w
    · obtain ⟨w', rfl⟩ := Fin.exists_succ_eq.2 hw
      exact (h2 w').2 i
  · rintro ⟨h1, h2⟩
    exact ⟨fun i k => h1 i k 0, fun w => ⟨fun i k => h1 i k w.succ, fun i => h2 i _ (Fin.succ_ne_zero w)⟩⟩

/-- Rates of one axial point of this column. -/
noncomputable def mixPt (D : GacDim n r z) (c fo fa q : Fin n → ℝ) : MPt (MBead n r) n → MPt (MBead n r) n :=
  ptRhs (mixIso D c fo q) (fun i => D.bedp i * fa i) D.beds (fun i => D.stdv i * D.dgI i) (fun i => 3 / D.dgI i) D.br D.wr

/-- The rates are those of such a column. -/
theorem mix_rates [NeZero n] (h : Spec.MixSetting D jac c fo fa q) (u : GacState n r z) :
    ((fun i k => gacRhs D c fo fa u i k.castSucc 0, fun w => (fun i k => gacRhs D c fo fa u i k.castSucc w.succ,
      fun i => gacRhs D c fo fa u i (Fin.last (r + 1)) w.succ)) : MBed (MBead n r) n z) =
    mbedRhs (mixPt D c fo fa q) D.dg1 D.az (mixExc c q u) := by
  have hiso : ∀ i (k : Fin (r + 1)) w, mixIso D c fo q (fun j => u j k.castSucc w - q j) i = cporeAt D fo u i k w - c i := by
    intro i k w
    rw [mix_poreAt h]
    unfold mixIso
    congr 2
    funext j
    simp
  have hbb : ∀ i k w, ∑ l, D.br k l * (1 * (D.bedp i * fa i * (cporeAt D fo u i l w - c i) +
      D.beds i * (u i l.castSucc w - q i))) = gacBB D fo fa u i k w := by
    intro i k w
    have e : ∀ l, D.br k l * (1 * (D.bedp i * fa i * (cporeAt D fo u i l w - c i) +
        D.beds i * (u i l.castSucc w - q i))) = D.br k l * D.bedp i * cporeAt D fo u i l w * fa i + D.br k l * D.beds i * u i l.castSucc w -
          D.br k l * (D.bedp i * fa i * c i + D.beds i * q i) := by
      intro l
      ring
    simp only [e, Finset.sum_sub_distrib, Finset.sum_add_distrib, ← Finset.sum_mul]
    rw [h.beads.rows, zero_mul, sub_zero]
    rfl
  refine Prod.ext (funext fun i => funext fun k => ?_) (funext fun w => Prod.ext (funext fun i => funext fun k => ?_) (funext fun i => ?_))
  · simp only [mbedRhs, mixPt, ptRhs, ptLin, mpore, mixExc, gacRhs_bead, gacBead, beadL, surf, Pi.add_apply, Pi.smul_apply, smul_eq_mul,
      hiso, gacWW, hbb, Pi.zero_apply]
    by_cases hk : k = Fin.last r
    · simp only [hk, if_true]
      ring
    · simp only [if_neg hk, mul_zero, add_zero]
  · simp only [mbedRhs, mixPt, ptRhs, ptLin, mpore, mixExc, gacRhs_bead, gacBead, beadL, surf, Pi.add_apply, Pi.smul_apply, smul_eq_mul,
      hiso, gacWW, hbb, Prod.fst_sub, sub_zero, gacCbs, Fin.succ_ne_zero, if_false, Pi.sub_apply, Pi.zero_apply]
    by_cases hk : k = Fin.last r
    · simp only [hk, if_true]
      ring
    · simp only [if_neg hk, mul_zero, add_zero]
  · have h0 := (axial_moves h.axial (fun _ => 1)).2 (fun _ => rfl) w.succ (Fin.succ_ne_zero w)
    simp only [mul_one] at h0
    rw [Fin.sum_univ_succ] at h0
    have hadv : ∑ w' : Fin z, D.az w.succ w'.succ * (u i (Fin.last (r + 1)) w'.succ - c i) =
        D.az w.succ 0 * c i + ∑ w' : Fin z, D.az w.succ w'.succ * u i (Fin.last (r + 1)) w'.succ := by
      simp only [mul_sub, Finset.sum_sub_distrib, ← Finset.sum_mul]
      linear_combination -c i * h0
    have hdg := (h.dgI i).ne'
    simp only [mbedRhs, mixPt, ptRhs, ptLin, mpore, mixExc, gacRhs_liq, gacLiq, gacCbs, hiso, Fin.succ_ne_zero, if_false, Prod.snd_sub,
      Pi.sub_apply, mflow, hadv]
    field_simp
    ring

theorem mix_energy [NeZero n] (h : Spec.MixSetting D jac c fo fa q) :
    ∃ (L : MPt (MBead n r) n →L[ℝ] MPt (MBead n r) n) (e : MPt (MBead n r) n →L[ℝ] MPt (MBead n r) n →L[ℝ] ℝ)
      (H : MBead n r →L[ℝ] (Fin n → ℝ)) (ℓ : (Fin n → ℝ) →L[ℝ] (Fin n → ℝ)) (lam : Fin n → ℝ), PtEnergy L e H ℓ lam ∧ HasFDerivAt (mixPt D c fo fa q) L 0 :=
  ⟨_, _, _, _, _, pt_energy (f := fun i => D.stdv i * D.dgI i) (μ := fun i => 3 / D.dgI i) h.beads (mix_comp h)
    (fun i => mul_pos (h.stdv i) (h.dgI i)) (fun i => div_pos (by norm_num) (h.dgI i)),
    ptRhs_deriv ((mix_smooth h).differentiableAt (by norm_num)).hasFDerivAt⟩

theorem mix_deriv [NeZero n] (h : Spec.MixSetting D jac c fo fa q) {T : ℝ} {y : ℝ → GacState n r z}
    (hy : Spec.Solves gacComp (fun _ u => gacRhs D c fo fa u) 0 T y) : ∀ t ∈ Icc 0 T,
      HasDerivWithinAt (fun s => mixExc c q (y s)) (mbedRhs (mixPt D c fo fa q) D.dg1 D.az (mixExc c q (y t))) (Icc 0 T) t := by
  intro t ht
  rw [← mix_rates h]
  refine HasDerivWithinAt.prodMk (hasDerivWithinAt_pi.2 fun i => hasDerivWithinAt_pi.2 fun k => ?_) (hasDerivWithinAt_pi.2 fun w =>
    HasDerivWithinAt.prodMk (hasDerivWithinAt_pi.2 fun i => hasDerivWithinAt_pi.2 fun k => ?_) (hasDerivWithinAt_pi.2 fun i => ?_))
  · exact (hy t ht (i, k.castSucc, 0)).sub_const _
  · exact (hy t ht (i, k.castSucc, w.succ)).sub_const _
  · exact (hy t ht (i, Fin.last (r + 1), w.succ)).sub_const _

/-- C262. There are constants of the column and its inputs such that every run that starts within `δ` of the exhausted column approaches it
at least as `C * exp (-(ω * t))`: any number of compounds, any exponents, any numbers of radial and axial nodes. -/
theorem c262_near [NeZero n] (h : Spec.MixSetting D jac c fo fa q) : ∃ δ C ω : ℝ, 0 < δ ∧ 0 < C ∧ 0 < ω ∧
    ∀ (ε T : ℝ) (y : ℝ → GacState n r z), Spec.Solves gacComp (fun _ u => gacRhs D c fo fa u) 0 T y →
    Spec.MixWithin c q ε (y 0) → ε ≤ δ → ∀ t ∈ Icc 0 T, Spec.MixWithin c q (C * Real.exp (-(ω * t)) * ε) (y t) := by
  obtain ⟨L, e, H, ℓ, lam, he, hL⟩ := mix_energy h
  obtain ⟨G, hG⟩ := axial_form h.axial
  obtain ⟨δ, C, ω, hδ, hC, hω, hx⟩ := mbed_local he (axial_moves h.axial) hG h.flow hL (ptRhs_zero (mix_zero h))
  refine ⟨δ, C, ω, hδ, hC, hω, fun ε T y hy h0 hε t ht => ?_⟩
  have hε0 : 0 ≤ ε := (abs_nonneg _).trans (h0.1 0 0 0)
  have hn := (mixExc_norm hε0).2 h0
  have := hx (fun s => mixExc c q (y s)) T (mix_deriv h hy) (hn.trans hε) t ht
  exact (mixExc_norm (by positivity)).1 (this.trans (mul_le_mul_of_nonneg_left hn (by positivity)))

theorem mix_shift {F : GacState n r z → GacState n r z} {y : ℝ → GacState n r z} {s T : ℝ} (hs : 0 ≤ s)
    (hy : Spec.Solves gacComp (fun _ u => F u) 0 (s + T) y) : Spec.Solves gacComp (fun _ u => F u) 0 T (fun t => y (s + t)) := by
  intro t ht a
  have h1 := hy (s + t) ⟨by linarith [ht.1], by linarith [ht.2]⟩ a
  have h2 : HasDerivWithinAt (fun τ : ℝ => s + τ) 1 (Icc 0 T) t := ((hasDerivAt_id t).const_add s).hasDerivWithinAt
  have h3 := HasDerivWithinAt.comp (h := fun τ : ℝ => s + τ) t h1 h2 (fun τ hτ => ⟨by linarith [hτ.1], by linarith [hτ.2]⟩)
  rw [mul_one] at h3
  exact h3

/-- C262. Whatever its start, a run for all time either keeps away from the exhausted column for ever, by `δ` in some loading or
concentration, or tends to it: all waters below the inlet to the influent, all loadings to their common equilibrium with it. -/
theorem c262_either [NeZero n] (h : Spec.MixSetting D jac c fo fa q) : ∃ δ : ℝ, 0 < δ ∧ ∀ y : ℝ → GacState n r z,
    (∀ T, Spec.Solves gacComp (fun _ u => gacRhs D c fo fa u) 0 T y) →
    (∀ t, 0 ≤ t → ¬ Spec.MixWithin c q δ (y t)) ∨
    ((∀ i w, w ≠ 0 → Tendsto (fun t => y t i (Fin.last (r + 1)) w) atTop (nhds (c i))) ∧
      ∀ i (k : Fin (r + 1)) w, Tendsto (fun t => y t i k.castSucc w) atTop (nhds (q i))) := by
  obtain ⟨δ, C, ω, hδ, hC, hω, hx⟩ := c262_near h
  refine ⟨δ, hδ, fun y hy => ?_⟩
  by_cases hs : ∃ s, 0 ≤ s ∧ Spec.MixWithin c q δ (y s)
  · obtain ⟨s, hs0, hs⟩ := hs
    right
    have hW : ∀ t, s ≤ t → Spec.MixWithin c q (C * Real.exp (-(ω * (t - s))) * δ) (y t) := by
      intro t ht
      have := hx δ (t - s) (fun τ => y (s + τ)) (mix_shift hs0 (hy _)) (by rw [add_zero]; exact hs) le_rfl (t - s) ⟨by linarith, le_rfl⟩
      rwa [add_sub_cancel] at this
    have hlim : Tendsto (fun t => C * Real.exp (-(ω * (t - s))) * δ) atTop (nhds 0) := by
      have h1 : Tendsto (fun t : ℝ => ω * (t - s)) atTop atTop := (tendsto_atTop_add_const_right _ (-s) tendsto_id).const_mul_atTop hω
      have h3 := ((Real.tendsto_exp_neg_atTop_nhds_zero.comp h1).const_mul C).mul_const δ
      simpa using h3
    have key : ∀ (f : ℝ → ℝ) (b : ℝ), (∀ t, s ≤ t → |f t - b| ≤ C * Real.exp (-(ω * (t - s))) * δ) → Tendsto f atTop (nhds b) := by
      intro f b hf
      rw [tendsto_iff_dist_tendsto_zero]
      refine squeeze_zero' (Eventually.of_forall fun t => dist_nonneg) ?_ hlim
      filter_upwards [eventually_ge_atTop s] with t h0
      rw [Real.dist_eq]
      exact hf t h0
    exact ⟨fun i w hw => key _ _ fun t ht => (hW t ht).2 i w hw, fun i k w => key _ _ fun t ht => (hW t ht).1 i k w⟩
  · left
    push Not at hs
    exact hs

/-- The state with given excesses and entries of the liquid row at the inlet. -/
noncomputable def mixState (c q : Fin n → ℝ) (e : Fin n → ℝ) (v : MBed (MBead n r) n z) : GacState n r z := fun i a w =>
  Fin.lastCases (motive := fun _ => ℝ) (Fin.cases (motive := fun _ => ℝ) (e i) (fun w' => (v.2 w').2 i + c i) w)
    (fun k => Fin.cases (motive := fun _ => ℝ) (v.1 i k + q i) (fun w' => (v.2 w').1 i k + q i) w) a

theorem mixExc_state (e : Fin n → ℝ) (v : MBed (MBead n r) n z) : mixExc c q (mixState c q e v) = v := by
  refine Prod.ext (funext fun i => funext fun k => ?_) (funext fun w => Prod.ext (funext fun i => funext fun k => ?_) (funext fun i => ?_))
  · simp [mixExc, mixState]
  · simp [mixExc, mixState]
  · simp [mixExc, mixState]

theorem mixState_exc {e : Fin n → ℝ} {u : GacState n r z} (he : ∀ i, u i (Fin.last (r + 1)) 0 = e i) : mixState c q e (mixExc c q u) = u := by
  funext i a w
  refine Fin.lastCases ?_ (fun k => ?_) a
  · refine Fin.cases ?_ (fun w => ?_) w
    · simp [mixState, he]
    · simp [mixState, mixExc]
  · refine Fin.cases ?_ (fun w => ?_) w
    · simp [mixState, mixExc]
    · simp [mixState, mixExc]

/-- C262. From every state within some distance of the exhausted column there is a run for all time, and exactly one. -/
theorem c262_run [NeZero n] (h : Spec.MixSetting D jac c fo fa q) : ∃ δ : ℝ, 0 < δ ∧ ∀ u : GacState n r z, Spec.MixWithin c q δ u →
    ∃ y : ℝ → GacState n r z, y 0 = u ∧ (∀ T, Spec.Solves gacComp (fun _ u => gacRhs D c fo fa u) 0 T y) ∧
      ∀ T x, Spec.Solves gacComp (fun _ u => gacRhs D c fo fa u) 0 T x → x 0 = u → ∀ t ∈ Icc 0 T, x t = y t := by
  obtain ⟨L, e, H, ℓ, lam, he, hL⟩ := mix_energy h
  obtain ⟨G, hG⟩ := axial_form h.axial
  obtain ⟨δ, hδ, hx⟩ := mbed_run he (axial_moves h.axial) hG h.flow (ptRhs_smooth (mix_smooth h)) hL (ptRhs_zero (mix_zero h))
  refine ⟨δ, hδ, fun u hu => ?_⟩
  obtain ⟨x, hx0, hxd, hxu⟩ := hx (mixExc c q u) ((mixExc_norm hδ.le).2 hu)
  have hsol : ∀ T, Spec.Solves gacComp (fun _ u => gacRhs D c fo fa u) 0 T
      (fun t => mixState c q (fun i => u i (Fin.last (r + 1)) 0) (x t)) := by
    intro T t ht a
    have h1 := hxd T t ht
    have e1 : mixPt D c fo fa q = ptRhs (mixIso D c fo q) (fun i => D.bedp i * fa i) D.beds (fun i => D.stdv i * D.dgI i)
      (fun i => 3 / D.dgI i) D.br D.wr := rfl
    have h2 : x t = mixExc c q (mixState c q (fun i => u i (Fin.last (r + 1)) 0) (x t)) := (mixExc_state _ _).symm
    rw [← e1] at h1
    rw [h2, ← mix_rates h] at h1
    obtain ⟨i, a, w⟩ := a
    have p1 : HasDerivWithinAt (fun s => (x s).1) _ (Icc 0 T) t :=
      (ContinuousLinearMap.fst ℝ (MBead n r) (Fin z → MPt (MBead n r) n)).hasFDerivAt.comp_hasDerivWithinAt t h1
    have p2 : HasDerivWithinAt (fun s => (x s).2) _ (Icc 0 T) t :=
      (ContinuousLinearMap.snd ℝ (MBead n r) (Fin z → MPt (MBead n r) n)).hasFDerivAt.comp_hasDerivWithinAt t h1
    show HasDerivWithinAt (fun s => mixState c q (fun i => u i (Fin.last (r + 1)) 0) (x s) i a w)
      (gacRhs D c fo fa (mixState c q (fun i => u i (Fin.last (r + 1)) 0) (x t)) i a w) (Icc 0 T) t
    refine Fin.lastCases ?_ (fun k => ?_) a
    · refine Fin.cases ?_ (fun w => ?_) w
      · rw [gacRhs_liq, gacLiq, if_pos rfl]
        refine (hasDerivWithinAt_const t (Icc 0 T) (u i (Fin.last (r + 1)) 0)).congr (fun s _ => ?_) ?_ <;> simp [mixState]
      · have p3 : HasDerivWithinAt (fun s => ((x s).2 w).2) _ (Icc 0 T) t :=
          (ContinuousLinearMap.snd ℝ (MBead n r) (Fin n → ℝ)).hasFDerivAt.comp_hasDerivWithinAt t (hasDerivWithinAt_pi.1 p2 w)
        refine ((hasDerivWithinAt_pi.1 p3 i).add_const (c i)).congr (fun s _ => ?_) ?_ <;> simp [mixState]
    · refine Fin.cases ?_ (fun w => ?_) w
      · refine ((hasDerivWithinAt_pi.1 (hasDerivWithinAt_pi.1 p1 i) k).add_const (q i)).congr (fun s _ => ?_) ?_ <;> simp [mixState]
      · have p3 : HasDerivWithinAt (fun s => ((x s).2 w).1) _ (Icc 0 T) t :=
          (ContinuousLinearMap.fst ℝ (MBead n r) (Fin n → ℝ)).hasFDerivAt.comp_hasDerivWithinAt t (hasDerivWithinAt_pi.1 p2 w)
        refine ((hasDerivWithinAt_pi.1 (hasDerivWithinAt_pi.1 p3 i) k).add_const (q i)).congr (fun s _ => ?_) ?_ <;> simp [mixState]
  refine ⟨_, ?_, hsol, fun T x' hx' h0 t ht => ?_⟩
  · rw [hx0]
    exact mixState_exc fun _ => rfl
  · have h1 := hxu T (fun s => mixExc c q (x' s)) (by beta_reduce; rw [h0]) (mix_deriv h hx') t ht
    have h2 : ∀ i, x' t i (Fin.last (r + 1)) 0 = u i (Fin.last (r + 1)) 0 := by
      intro i
      rw [← h0]
      refine constant_of_derivWithin_zero (f := fun s => x' s i (Fin.last (r + 1)) 0) (a := 0) (b := T)
        (fun s hs => (hx' s hs (i, Fin.last (r + 1), 0)).differentiableWithinAt) (fun s hs => ?_) t ht
      have h3 := hx' s ⟨hs.1, hs.2.le⟩ (i, Fin.last (r + 1), 0)
      have h4 : gacComp (i, Fin.last (r + 1), 0) (gacRhs D c fo fa (x' s)) = 0 := by
        show gacRhs D c fo fa (x' s) i (Fin.last (r + 1)) 0 = 0
        rw [gacRhs_liq, gacLiq, if_pos rfl]
      beta_reduce at h3
      rw [h4] at h3
      exact h3.derivWithin (uniqueDiffOn_Icc (hs.1.trans_lt hs.2) s ⟨hs.1, hs.2.le⟩)
    beta_reduce
    rw [← h1]
    exact (mixState_exc h2).symm

/-- C262. The exhausted column exists and is unique: for any influent and fouling factors there is exactly one set of positive loadings in
equilibrium with it. -/
theorem c262_exists [NeZero n] {ym xn : Fin n → ℝ} (hym : ∀ i, 0 < ym i) (hxn : ∀ i, 0 < xn i) (hc : ∀ i, 0 < c i) (hf : ∀ i, 0 < fo i) :
    ∃! q : Fin n → ℝ, (∀ i, 0 < q i) ∧ Spec.Iast ym xn (fun i => ym i * q i) (fun i => c i / fo i) := by
  obtain ⟨x, ⟨hx, h1⟩, h2⟩ := c221_iast hym hxn fun i => div_pos (hc i) (hf i)
  refine ⟨fun i => x i / ym i, ⟨fun i => div_pos (hx i) (hym i), ?_⟩, ?_⟩
  · have e : (fun i => ym i * (x i / ym i)) = x := funext fun i => mul_div_cancel₀ _ (hym i).ne'
    rw [e]
    exact h1
  · rintro y ⟨hy, h3⟩
    have := h2 _ ⟨fun i => mul_pos (hym i) (hy i), h3⟩
    funext i
    rw [← congrFun this i]
    exact (mul_div_cancel_left₀ _ (hym i).ne').symm

/-- C262. At exhaustion nothing changes. -/
theorem c262_rest [NeZero n] (h : Spec.MixSetting D jac c fo fa q) {u : GacState n r z} (hu : Spec.MixWithin c q 0 u) :
    ∀ i a w, gacRhs D c fo fa u i a w = 0 := by
  have e : mixExc c q u = 0 := norm_le_zero_iff.1 ((mixExc_norm le_rfl).2 hu)
  have hr := mix_rates h u
  rw [e] at hr
  have h0 : mbedRhs (mixPt D c fo fa q) D.dg1 D.az (0 : MBed (MBead n r) n z) = 0 := by
    have hz : mixPt D c fo fa q 0 = 0 := ptRhs_zero (mix_zero h)
    refine Prod.ext ?_ (funext fun w => ?_)
    · show (mixPt D c fo fa q 0).1 = 0
      rw [hz]; rfl
    · show mixPt D c fo fa q 0 - ((0 : MBead n r), mflow D.dg1 D.az (0 : Fin z → MPt (MBead n r) n) w) = 0
      rw [hz, zero_sub, neg_eq_zero]
      refine Prod.ext rfl (funext fun i => ?_)
      simp [mflow]
  rw [h0] at hr
  intro i a w
  refine Fin.lastCases ?_ (fun k => ?_) a
  · refine Fin.cases ?_ (fun w => ?_) w
    · rw [gacRhs_liq, gacLiq, if_pos rfl]
    · exact congrFun (congrArg Prod.snd (congrFun (congrArg Prod.snd hr) w)) i
  · refine Fin.cases ?_ (fun w => ?_) w
    · exact congrFun (congrFun (congrArg Prod.fst hr) i) k
    · exact congrFun (congrFun (congrArg Prod.fst (congrFun (congrArg Prod.snd hr) w)) i) k

/-- C262. For each compound the area between influent and effluent of a run that tends to exhaustion is what the column takes up: with `dg`
the capacity of the code, the exhausted content `c + dg * q` less the content at the start. -/
theorem c262_area (h : Spec.MixSetting D jac c fo fa q) (hM : 2 ≤ z) :
    ∃ g : Fin (z + 1) → ℝ, g 0 = 0 ∧ ∑ w, g w = 1 ∧ ∀ y : ℝ → GacState n r z,
    (∀ T, Spec.Solves gacComp (fun _ u => gacRhs D c fo fa u) 0 T y) →
    (∀ i w, w ≠ 0 → Tendsto (fun t => y t i (Fin.last (r + 1)) w) atTop (nhds (c i))) →
    (∀ i (k : Fin (r + 1)) w, Tendsto (fun t => y t i k.castSucc w) atTop (nhds (q i))) →
    ∀ i (dg : ℝ), dg ≠ 0 → D.dgI i = 1 / dg → Tendsto (fun T => D.dg1 * ∫ t in (0 : ℝ)..T, (c i - y t i (Fin.last (r + 1)) (Fin.last z))) atTop
      (nhds (c i + dg * q i - Spec.gacContent dg D.wr g (y 0) i)) := by
  obtain ⟨g, hgi, hsum, hgt⟩ := axial_mean h.axial hM
  refine ⟨g, hgi, hsum, fun y hy hlq hbd i dg hdg hI => ?_⟩
  have hW := (h.beads.wpos (Fin.last r)).ne'
  have hW3 : ∑ k, D.wr k = 1 / 3 := by
    rw [h.beads.weights]
    exact (c17_positive_sum (Nat.succ_pos r) (radialNodes_inj h.beads.zeros.1 (fun i => (h.beads.zeros.2.1 i).2))
      (radialNodes_pos (fun i => (h.beads.zeros.2.1 i).1)) (by norm_num : (0:ℝ) < 3)).2
  have hlim : Tendsto (fun T => Spec.gacContent dg D.wr g (y T) i) atTop
      (nhds (∑ w, g w * (c i + 3 * dg * ∑ k : Fin (r + 1), D.wr k * q i))) := by
    unfold Spec.gacContent
    refine tendsto_finsetSum _ fun w _ => ?_
    by_cases hw : w = 0
    · rw [hw, hgi]
      simp only [zero_mul]
      exact tendsto_const_nhds
    · exact ((hlq i w hw).add ((tendsto_finsetSum _ fun k _ => (hbd i k w).const_mul (D.wr k)).const_mul (3 * dg))).const_mul (g w)
  have hend : ∑ w, g w * (c i + 3 * dg * ∑ k : Fin (r + 1), D.wr k * q i) = c i + dg * q i := by
    rw [← Finset.sum_mul, hsum, ← Finset.sum_mul, hW3]
    ring
  rw [hend] at hlim
  refine (hlim.sub_const (Spec.gacContent dg D.wr g (y 0) i)).congr' ?_
  filter_upwards [eventually_ge_atTop 0] with T hT
  have hco : IntervalIntegrable (fun t => y t i (Fin.last (r + 1)) (Fin.last z)) MeasureTheory.volume 0 T := by
    apply ContinuousOn.intervalIntegrable
    rw [Set.uIcc_of_le hT]
    exact solves_continuousOn (hy T) (i, Fin.last (r + 1), Fin.last z)
  rw [c156_solutions D (axial_pos h.axial) hW (fun _ => c) (fun _ => fo) (fun _ => fa) i hdg hI hgi hgt hT (hy T) intervalIntegrable_const,
    intervalIntegral.integral_sub intervalIntegrable_const hco]

/-- Equal surface diffusivities satisfy the condition on diffusion, with or without pore diffusion; so does a single compound. -/
theorem c262_equal {ν q p d : Fin n → ℝ} {b : ℝ} (hb : 0 < b) (hd : ∀ i, d i = b) (hp : ∀ i, 0 ≤ p i) : Spec.Levels ν q p d :=
  ⟨hp, b, fun _ => 0, fun _ => le_rfl, by simpa using hb, fun i => by rw [hd, sub_self]; simp⟩

/-- So do surface diffusivities that are small enough beside pore diffusion, whatever their ratios. -/
theorem c262_slow [NeZero n] {ν q p d : Fin n → ℝ} {s : ℝ} (hν : ∀ i, 0 < ν i) (hq : ∀ i, 0 < q i) (hs : 0 < s) (hd : ∀ i, 0 ≤ d i ∧ d i ≤ s)
    (hp : ∀ i, 0 < p i) (hsum : s * ∑ i, Spec.response ν q i / (4 * p i) < 1) : Spec.Levels ν q p d := by
  have hr := fun i => (response_bound hq hν i).1
  refine ⟨fun i => (hp i).le, s, fun i => s ^ 2 * Spec.response ν q i / (4 * p i), fun i => ?_, ?_, fun i => ?_⟩
  · have := hp i
    have := (hr i).le
    positivity
  · simp only [mul_div_assoc]
    rw [← Finset.mul_sum]
    nlinarith
  · have h4 : 4 * p i * (s ^ 2 * Spec.response ν q i / (4 * p i)) = s ^ 2 * Spec.response ν q i := by
      have := (hp i).ne'
      field_simp
    rw [h4]
    refine mul_le_mul_of_nonneg_right ?_ (hr i).le
    nlinarith [hd i]

/-- Specification: physical inputs. -/
structure Spec.MixPhysical (G : GacCol) (cs : Fin n → GacComp) : Prop where
  ok : ∀ i, (cs i).Ok
  ebed : 0 < G.ebed ∧ G.ebed < 1
  epor : 0 ≤ G.epor
  rhop : 0 < G.rhop
  tau : 0 < G.tau
  rad : 0 < G.rad
  kf : ∀ i, 0 < kfUsed G (cs i)

/-- Columns that `gacDim` builds from physical inputs are such settings if the loadings are in equilibrium with the influent in molar units,
by ideal adsorbed solution theory with the Freundlich constants of the compounds, and pore diffusion makes up for the differences. -/
theorem mixPhysical_setting [NeZero n] {G : GacCol} {cs : Fin n → GacComp} (h : Spec.MixPhysical G cs) {wr : Fin (r + 1) → ℝ}
    {br : Fin (r + 1) → Fin (r + 1) → ℝ} (g : Spec.BeadGrid jac br wr) {az : Fin (z + 1) → Fin (z + 1) → ℝ} (hz : Spec.AxialGrid z az)
    (hc : ∀ i, 0 < c i) (hf : ∀ i, 0 < fo i) (hq : ∀ i, 0 < q i)
    (hspent : Spec.Iast (fun i => molarK (cs i).K (cs i).mw (cs i).xn) (fun i => (cs i).xn) (fun i => q i * qeOf (cs i))
      (fun i => c i * cb0Of (cs i).c0 / fo i))
    (hl : Spec.Levels (fun i => 1 / (cs i).xn) (fun i => ymOf cs i * q i) (fun i => bedpOf G cs i * fa i * (ymOf cs i * c i)) (bedsOf G cs)) :
    Spec.MixSetting (gacDim G cs wr br az) jac c fo fa q := by
  have he := h.ebed
  have h1e : 0 < 1 - G.ebed := by linarith [he.2]
  have hr := h.rhop
  have ht := h.tau
  have hd := h.rad
  have hep := h.epor
  have hqe := fun i => qe_pos (h.ok i)
  have hcb := fun i => cb0_pos (h.ok i)
  have hx : ∀ i, 0 < (cs i).xn := fun i => (h.ok i).2.1
  have hm : ∀ i, 0 < molarK (cs i).K (cs i).mw (cs i).xn := fun i => molarK_pos (h.ok i).1 (h.ok i).2.2.1
  have hym := fun i => ym_pos h.ok i
  have hdg : ∀ i, 0 < dgOf G (cs i) := by
    intro i
    unfold dgOf dgsOf dgpOf
    have := he.1
    have := hqe i
    have := hcb i
    positivity
  have hdgt : 0 < dgtOf G cs := Finset.sum_pos (fun i _ => hdg i) Finset.univ_nonempty
  refine ⟨hym, hx, fun i => ?_, fun i => one_div_pos.2 (hdg i), ?_, g, hz, hc, hf, hq, ?_, hl⟩
  · show 0 < stdvOf G cs i
    unfold stdvOf
    have := he.1
    have := h.kf i
    positivity
  · show 0 < 1 + dgtOf G cs
    linarith
  · have hS : 0 < ∑ j, q j * qeOf (cs j) := Finset.sum_pos (fun j _ => mul_pos (hq j) (hqe j)) Finset.univ_nonempty
    have h1 := iast_converse hm hx hS hspent
    have h2 := iast_converse hm hx hS (c87_iast h.ok (fun i => (hq i).le) (hq 0))
    have h3 : ∀ i, cpore (ymOf cs) (fun i => (cs i).xn) (fun _ => 1) q i = c i / fo i := by
      intro i
      have h4 := (h2 i).1.trans (h1 i).1.symm
      have := (hcb i).ne'
      have := (hf i).ne'
      field_simp at h4 ⊢
      linarith
    have hν : ∀ i, 0 < 1 / (cs i).xn := fun i => one_div_pos.2 (hx i)
    have h5 := iast_formula (K := ymOf cs) (ν := fun i => 1 / (cs i).xn) (q := fun i => ymOf cs i * q i) (c := fun i => c i / fo i) hym hν
      (fun i => (mul_pos (hym i) (hq i)).le) (mul_pos (hym 0) (hq 0)) (fun i => by
        rw [← h3 i, cpore_eq hym hx (fun i => (hq i).le) (hq 0) i, one_mul]
        congr 2
        have := (hx i).ne'
        have := (hym i).ne'
        field_simp)
    simp only [one_div_one_div] at h5
    exact h5

/-- Columns as in C262 exist for any numbers of nodes, with two compounds of different exponents and of surface diffusivities that differ by a
factor of five, and runs that tend to exhaustion without having been exhausted: the start is `δ` away. -/
example (r z : ℕ) (A : Fin (z + 1) → Fin (z + 1) → ℝ) (hA : Spec.AxialGrid z A) : ∃ (D : GacDim 2 r z) (jac : Fin r → ℝ) (c q : Fin 2 → ℝ),
    Spec.MixSetting D jac c 1 1 q ∧ D.xn 0 = 1 / 2 ∧ D.xn 1 = 1 / 4 ∧ D.beds 1 = 5 * D.beds 0 ∧ D.az = A ∧
      ∃ (δ : ℝ) (y : ℝ → GacState 2 r z), 0 < δ ∧ (∀ T, Spec.Solves gacComp (fun _ u => gacRhs D c 1 1 u) 0 T y) ∧
      y 0 0 (Fin.last (r + 1)) (Fin.last z) = c 0 - δ ∧
      (∀ i, Tendsto (fun t => y t i (Fin.last (r + 1)) (Fin.last z)) atTop (nhds (c i))) := by
  obtain ⟨jac, B, W, g⟩ := beadGrid_exists r
  have hlast : Fin.last z ≠ 0 := fun e => by have := congrArg Fin.val e; have := axial_pos hA; simp at *; omega
  let D : GacDim 2 r z := ⟨fun _ => 1 / 2, ![1 / 2, 1 / 4], ![1, 5], fun _ => 1, fun _ => 1, fun _ => 1, 3, W, B, A⟩
  have hD : Spec.MixSetting D jac ![9 / 2, 81 / 32] 1 1 1 := by
    have hx : ∀ i, 0 < (![1 / 2, 1 / 4] : Fin 2 → ℝ) i := by intro i; fin_cases i <;> norm_num
    refine ⟨fun _ => by norm_num [D], hx, fun _ => one_pos, fun _ => one_pos, by norm_num [D], g, hA, ?_, fun _ => one_pos, fun _ => one_pos, ?_, ?_⟩
    · intro i; fin_cases i <;> norm_num
    · have h5 := iast_formula (K := fun _ : Fin 2 => (1 / 2 : ℝ)) (ν := fun i => 1 / (![1 / 2, 1 / 4] : Fin 2 → ℝ) i)
        (q := fun _ => 1 / 2) (c := ![9 / 2, 81 / 32]) (fun _ => by norm_num) (fun i => one_div_pos.2 (hx i)) (fun _ => by norm_num) (j := 0) (by norm_num)
        (fun i => by
          fin_cases i
          · norm_num [Fin.sum_univ_two]
          · norm_num [Fin.sum_univ_two])
      simp only [one_div_one_div] at h5
      have e1 : (fun i => D.ym i * (1 : Fin 2 → ℝ) i) = fun _ => 1 / 2 := by funext i; simp [D]
      have e2 : (fun i => (![9 / 2, 81 / 32] : Fin 2 → ℝ) i / (1 : Fin 2 → ℝ) i) = ![9 / 2, 81 / 32] := by funext i; simp
      rw [e1, e2]
      exact h5
    · refine ⟨fun i => ?_, 1, ![0, 7 / 10], fun i => ?_, ?_, fun i => ?_⟩
      · fin_cases i <;> norm_num [D]
      · fin_cases i <;> norm_num
      · norm_num [Fin.sum_univ_two]
      · fin_cases i <;> norm_num [D, Spec.response, Fin.sum_univ_two]
  obtain ⟨δ, hδ, hx⟩ := c262_either hD
  obtain ⟨δ', hδ', hr⟩ := c262_run hD
  have hm : 0 < min δ δ' := lt_min hδ hδ'
  have hW : ∀ ε, min δ δ' ≤ ε → Spec.MixWithin (r := r) (z := z) ![9 / 2, 81 / 32] 1 ε
      (fun i a _ => if a = Fin.last (r + 1) then (![9 / 2, 81 / 32] : Fin 2 → ℝ) i - min δ δ' else 1) := by
    intro ε hε
    refine ⟨fun i k w => ?_, fun i w _ => ?_⟩
    · beta_reduce
      rw [if_neg (Fin.castSucc_lt_last k).ne]
      simpa using hm.le.trans hε
    · beta_reduce
      rw [if_pos rfl, sub_sub_cancel_left, abs_neg, abs_of_pos hm]
      exact hε
  obtain ⟨y, hy0, hy, -⟩ := hr _ (hW δ' (min_le_right _ _))
  refine ⟨D, jac, _, _, hD, rfl, rfl, by norm_num [D], rfl, min δ δ', y, hm, hy, by rw [hy0]; simp, fun i => ?_⟩
  rcases hx y hy with h | h
  · exact absurd (by rw [hy0]; exact hW δ (min_le_left _ _)) (h 0 le_rfl)
  · exact h.1 i _ hlast

end
end WTM
