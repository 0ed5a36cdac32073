import Verif.Lemmas.Global
import Verif.Props.GacUnique
import Verif.Props.Stationary
import Mathlib.Analysis.SpecialFunctions.Integrals.Basic
import Mathlib.Topology.Order.IntermediateValue

/-! C212: a powdered carbon contactor runs for all time and tends to the equilibrium of its isotherm. -/
set_option autoImplicit false
namespace WTM
open BigOperators Set Topology Filter

variable {r : ℕ}

/-! ### Beads of one compound in a closed tank -/

/-- An isotherm: pore concentration `κ` of a loading and its inverse `qs`. -/
structure TankIso (κ qs : ℝ → ℝ) : Prop where
  lip : LocallyLipschitz κ
  cqs : Continuous qs
  neg : ∀ q ≤ 0, κ q = 0
  mono : StrictMonoOn κ (Ici 0)
  inv : ∀ c, 0 ≤ c → 0 ≤ qs c ∧ κ (qs c) = c

/-- What drives diffusion in the bead. -/
def tankPsi (κ : ℝ → ℝ) (α β q : ℝ) : ℝ := α * κ q + β * q

/-- Rates of the loadings at the nodes and of the liquid. -/
noncomputable def tankRhs (κ : ℝ → ℝ) (α β f μ : ℝ) (B : Fin (r + 1) → Fin (r + 1) → ℝ) (W : Fin (r + 1) → ℝ)
    (u : (Fin (r + 1) → ℝ) × ℝ) : (Fin (r + 1) → ℝ) × ℝ :=
  (fun k => if k = Fin.last r then (f * (u.2 - κ (u.1 (Fin.last r))) -
      ∑ j : Fin r, W j.castSucc * ∑ l, B j.castSucc l * tankPsi κ α β (u.1 l)) / W (Fin.last r)
    else ∑ l, B k l * tankPsi κ α β (u.1 l),
   -(μ * (f * (u.2 - κ (u.1 (Fin.last r))))))

section tank
variable {κ qs : ℝ → ℝ} {α β f μ : ℝ} {jac : Fin r → ℝ} {B : Fin (r + 1) → Fin (r + 1) → ℝ} {W : Fin (r + 1) → ℝ}

theorem TankIso.nonneg (h : TankIso κ qs) (q : ℝ) : 0 ≤ κ q := by
  rcases le_total q 0 with hq | hq
  · exact (h.neg q hq).ge
  · rw [← h.neg 0 le_rfl]
    exact h.mono.monotoneOn (mem_Ici.2 le_rfl) hq hq

theorem TankIso.monotone (h : TankIso κ qs) : Monotone κ := by
  intro a b hab
  rcases le_total a 0 with ha | ha
  · rw [h.neg a ha]; exact h.nonneg b
  · exact h.mono.monotoneOn ha (ha.trans hab) hab

theorem TankIso.left (h : TankIso κ qs) {q : ℝ} (hq : 0 ≤ q) : qs (κ q) = q :=
  h.mono.injOn (h.inv _ (h.nonneg q)).1 hq (h.inv _ (h.nonneg q)).2

theorem tank_lip (h : TankIso κ qs) (B : Fin (r + 1) → Fin (r + 1) → ℝ) (W : Fin (r + 1) → ℝ) :
    LocallyLipschitz (tankRhs κ α β f μ B W) := by
  have hq : ∀ k, LocallyLipschitz fun u : (Fin (r + 1) → ℝ) × ℝ => u.1 k := by
    intro k
    have : ContDiff ℝ 1 fun u : (Fin (r + 1) → ℝ) × ℝ => u.1 k := by fun_prop
    exact this.locallyLipschitz
  have hc : LocallyLipschitz fun u : (Fin (r + 1) → ℝ) × ℝ => u.2 := LipschitzWith.prod_snd.locallyLipschitz
  have hκ : ∀ k, LocallyLipschitz fun u : (Fin (r + 1) → ℝ) × ℝ => κ (u.1 k) := fun k => h.lip.comp (hq k)
  have hF : LocallyLipschitz fun u : (Fin (r + 1) → ℝ) × ℝ => f * (u.2 - κ (u.1 (Fin.last r))) :=
    lip_mul (lip_const _) (lip_sub hc (hκ _))
  have hr : ∀ k, LocallyLipschitz fun u : (Fin (r + 1) → ℝ) × ℝ => ∑ l, B k l * tankPsi κ α β (u.1 l) := by
    intro k
    unfold tankPsi
    exact lip_sum _ fun l _ => lip_mul (lip_const _) (lip_add (lip_mul (lip_const _) (hκ l)) (lip_mul (lip_const _) (hq l)))
  refine LocallyLipschitz.prodMk (lip_pi fun k => ?_) (lip_neg (lip_mul (lip_const _) hF))
  by_cases hk : k = Fin.last r
  · simp only [if_pos hk]
    exact lip_div (lip_sub hF (lip_sum _ fun j _ => lip_mul (lip_const _) (hr _))) _
  · simp only [if_neg hk]
    exact hr k

/-- What the tank dissipates. -/
noncomputable def tankDiss (κ qs : ℝ → ℝ) (α β f : ℝ) (jac : Fin r → ℝ) (W : Fin (r + 1) → ℝ)
    (u : (Fin (r + 1) → ℝ) × ℝ) : ℝ :=
  Spec.roughness jac W (fun k => tankPsi κ α β (u.1 k)) +
    f * ((u.2 - κ (u.1 (Fin.last r))) * (α * u.2 + β * qs u.2 - tankPsi κ α β (u.1 (Fin.last r))))

/-- Rate of the potential. -/
theorem tank_rate (g : Spec.BeadGrid jac B W) (hμ : μ ≠ 0) (u : (Fin (r + 1) → ℝ) × ℝ) :
    ∑ k, W k * (tankPsi κ α β (u.1 k) * (tankRhs κ α β f μ B W u).1 k) +
      1 / μ * ((α * u.2 + β * qs u.2) * (tankRhs κ α β f μ B W u).2) = -tankDiss κ qs α β f jac W u := by
  have hne : ∀ k : Fin r, k.castSucc ≠ Fin.last r := fun k => (Fin.castSucc_lt_last k).ne
  have h := bead_energy g 1 (f * (u.2 - κ (u.1 (Fin.last r)))) (fun k => tankPsi κ α β (u.1 k))
    ((tankRhs κ α β f μ B W u).1) (fun k hk => by simp only [tankRhs]; rw [if_neg hk, one_mul])
    (by
      simp only [tankRhs]
      rw [if_pos trivial]
      simp only [if_neg (hne _)])
  rw [h]
  unfold tankDiss
  show _ + 1 / μ * ((α * u.2 + β * qs u.2) * -(μ * (f * (u.2 - κ (u.1 (Fin.last r)))))) = _
  field_simp
  ring

/-- Rate of the content. -/
theorem tank_content (hW : W (Fin.last r) ≠ 0) (hμ : μ ≠ 0) (u : (Fin (r + 1) → ℝ) × ℝ) :
    ∑ k, W k * (tankRhs κ α β f μ B W u).1 k + 1 / μ * (tankRhs κ α β f μ B W u).2 = 0 := by
  have hne : ∀ k : Fin r, k.castSucc ≠ Fin.last r := fun k => (Fin.castSucc_lt_last k).ne
  rw [Fin.sum_univ_castSucc]
  simp only [tankRhs, if_neg (hne _), if_true]
  rw [mul_div_cancel₀ _ hW]
  field_simp
  ring

theorem tank_film (h : TankIso κ qs) (hα : 0 ≤ α) (hβ : 0 < β) {c : ℝ} (hc : 0 ≤ c) (q : ℝ) :
    0 ≤ (c - κ q) * (α * c + β * qs c - tankPsi κ α β q) ∧
      ((c - κ q) * (α * c + β * qs c - tankPsi κ α β q) = 0 → c = κ q) := by
  have hi := h.inv c hc
  have e : α * c + β * qs c - tankPsi κ α β q = α * (c - κ q) + β * (qs c - q) := by unfold tankPsi; ring
  rw [e]
  rcases lt_trichotomy c (κ q) with hlt | heq | hlt
  · -- loaded above equilibrium
    have hq : 0 < q := by
      by_contra hq
      rw [h.neg q (not_lt.1 hq)] at hlt
      linarith
    have hs : qs c < q := by
      by_contra hs
      have := h.monotone (not_lt.1 hs)
      rw [hi.2] at this
      linarith
    have h1 : α * (c - κ q) + β * (qs c - q) < 0 := by
      have := mul_nonneg hα (sub_nonneg.2 hlt.le)
      have := mul_pos hβ (sub_pos.2 hs)
      nlinarith
    have h2 := mul_pos_of_neg_of_neg (sub_neg.2 hlt) h1
    exact ⟨h2.le, fun h0 => absurd h0 h2.ne'⟩
  · rw [heq, sub_self, zero_mul]
    exact ⟨le_rfl, fun _ => rfl⟩
  · have hs : q < qs c := by
      by_contra hs
      have := h.monotone (not_lt.1 hs)
      rw [hi.2] at this
      linarith
    have h1 : 0 < α * (c - κ q) + β * (qs c - q) := by
      have := mul_nonneg hα (sub_nonneg.2 hlt.le)
      have := mul_pos hβ (sub_pos.2 hs)
      linarith
    have h2 := mul_pos (sub_pos.2 hlt) h1
    exact ⟨h2.le, fun h0 => absurd h0 h2.ne'⟩

theorem tank_diss_nonneg (g : Spec.BeadGrid jac B W) (h : TankIso κ qs) (hα : 0 ≤ α) (hβ : 0 < β) (hf : 0 < f)
    {u : (Fin (r + 1) → ℝ) × ℝ} (hc : 0 ≤ u.2) : 0 ≤ tankDiss κ qs α β f jac W u :=
  add_nonneg (c205_rough g _).1 (mul_nonneg hf.le (tank_film h hα hβ hc _).1)

/-- Nothing is dissipated at equilibrium only. -/
theorem tank_diss_zero (g : Spec.BeadGrid jac B W) (h : TankIso κ qs) (hα : 0 ≤ α) (hβ : 0 < β) (hf : 0 < f)
    {u : (Fin (r + 1) → ℝ) × ℝ} (hc : 0 ≤ u.2) (h0 : tankDiss κ qs α β f jac W u = 0) :
    (∀ k, u.1 k = u.1 (Fin.last r)) ∧ u.2 = κ (u.1 (Fin.last r)) := by
  have h1 := c205_rough g (fun k => tankPsi κ α β (u.1 k))
  have h2 := tank_film h hα hβ hc (u.1 (Fin.last r))
  have h3 := mul_nonneg hf.le h2.1
  unfold tankDiss at h0
  have e1 : Spec.roughness jac W (fun k => tankPsi κ α β (u.1 k)) = 0 := by linarith [h1.1]
  have e2 : f * ((u.2 - κ (u.1 (Fin.last r))) * (α * u.2 + β * qs u.2 - tankPsi κ α β (u.1 (Fin.last r)))) = 0 := by
    linarith [h1.1]
  refine ⟨fun k => ?_, h2.2 ((mul_eq_zero.1 e2).resolve_left hf.ne')⟩
  have h4 := h1.2.1 e1 k (Fin.last r)
  have hψ : StrictMono (tankPsi κ α β) := by
    intro a b hab
    unfold tankPsi
    have := mul_le_mul_of_nonneg_left (h.monotone hab.le) hα
    have := mul_lt_mul_of_pos_left hab hβ
    linarith
  exact hψ.injective h4

/-! ### The potential along a run -/

/-- Potential of the tank. -/
noncomputable def tankV (κ qs : ℝ → ℝ) (α β μ : ℝ) (W : Fin (r + 1) → ℝ) (u : (Fin (r + 1) → ℝ) × ℝ) : ℝ :=
  ∑ k, W k * (α * (∫ s in (0:ℝ)..u.1 k, κ s) + β / 2 * u.1 k ^ 2) +
    1 / μ * (α / 2 * u.2 ^ 2 + β * ∫ s in (0:ℝ)..u.2, qs s)

/-- Content of the tank. -/
noncomputable def tankM (μ : ℝ) (W : Fin (r + 1) → ℝ) (u : (Fin (r + 1) → ℝ) × ℝ) : ℝ := ∑ k, W k * u.1 k + 1 / μ * u.2

variable {S : Set ℝ} {y : ℝ → (Fin (r + 1) → ℝ) × ℝ}

theorem tank_parts {F : (Fin (r + 1) → ℝ) × ℝ} {t : ℝ} (h : HasDerivWithinAt y F S t) :
    (∀ k, HasDerivWithinAt (fun t => (y t).1 k) (F.1 k) S t) ∧ HasDerivWithinAt (fun t => (y t).2) F.2 S t := by
  have h1 := hasDerivWithinAt_iff_hasFDerivWithinAt.1 h
  have h2 : HasDerivWithinAt (fun t => (y t).1) F.1 S t := by
    have := h1.fst.hasDerivWithinAt
    simpa using this
  have h3 : HasDerivWithinAt (fun t => (y t).2) F.2 S t := by
    have := h1.snd.hasDerivWithinAt
    simpa using this
  exact ⟨fun k => hasDerivWithinAt_pi.1 h2 k, h3⟩

theorem tankV_deriv (g : Spec.BeadGrid jac B W) (h : TankIso κ qs) (hμ : μ ≠ 0) {t : ℝ}
    (hy : HasDerivWithinAt y (tankRhs κ α β f μ B W (y t)) S t) :
    HasDerivWithinAt (fun t => tankV κ qs α β μ W (y t)) (-tankDiss κ qs α β f jac W (y t)) S t := by
  rw [← tank_rate g hμ]
  obtain ⟨h1, h2⟩ := tank_parts hy
  have hI : ∀ φ : ℝ → ℝ, Continuous φ → ∀ x, HasDerivAt (fun x => ∫ s in (0:ℝ)..x, φ s) (φ x) x :=
    fun φ hφ x => (hφ.integral_hasStrictDerivAt 0 x).hasDerivAt
  unfold tankV
  refine HasDerivWithinAt.add (HasDerivWithinAt.fun_sum fun k _ => ?_) (HasDerivWithinAt.const_mul _ ?_)
  · refine HasDerivWithinAt.const_mul _ ?_
    have e1 := ((hI κ h.lip.continuous ((y t).1 k)).comp_hasDerivWithinAt t (h1 k)).const_mul α
    have e2 := ((h1 k).pow 2).const_mul (β / 2)
    refine HasDerivWithinAt.congr_deriv (e1.add e2) ?_
    unfold tankPsi
    simp
    ring
  · have e1 := ((hI qs h.cqs ((y t).2)).comp_hasDerivWithinAt t h2).const_mul β
    have e2 := (h2.pow 2).const_mul (α / 2)
    refine HasDerivWithinAt.congr_deriv (e2.add e1) ?_
    simp
    ring

theorem tankM_deriv (hW : W (Fin.last r) ≠ 0) (hμ : μ ≠ 0) {t : ℝ}
    (hy : HasDerivWithinAt y (tankRhs κ α β f μ B W (y t)) S t) :
    HasDerivWithinAt (fun t => tankM μ W (y t)) 0 S t := by
  rw [← tank_content (κ := κ) (α := α) (β := β) (f := f) (B := B) hW hμ (y t)]
  obtain ⟨h1, h2⟩ := tank_parts hy
  exact HasDerivWithinAt.add (HasDerivWithinAt.fun_sum fun k _ => (h1 k).const_mul _) (h2.const_mul _)

/-- The liquid does not run below zero. -/
theorem tank_liquid (h : TankIso κ qs) (hf : 0 < f) (hμ : 0 < μ) {T : ℝ}
    (hy : ∀ t ∈ Icc 0 T, HasDerivWithinAt y (tankRhs κ α β f μ B W (y t)) (Icc 0 T) t) (h0 : 0 ≤ (y 0).2) :
    ∀ t ∈ Icc 0 T, 0 ≤ (y t).2 := by
  have hd : ∀ t ∈ Icc 0 T, HasDerivWithinAt (fun t => (y t).2 * Real.exp (μ * f * t))
      (μ * f * κ ((y t).1 (Fin.last r)) * Real.exp (μ * f * t)) (Icc 0 T) t := by
    intro t ht
    have h1 := (tank_parts (hy t ht)).2
    have h2 : HasDerivWithinAt (fun t => Real.exp (μ * f * t)) (Real.exp (μ * f * t) * (μ * f)) (Icc 0 T) t := by
      have := ((hasDerivAt_id t).const_mul (μ * f)).exp
      simpa using this.hasDerivWithinAt
    refine HasDerivWithinAt.congr_deriv (h1.mul h2) ?_
    simp only [tankRhs]
    ring
  have hm : MonotoneOn (fun t => (y t).2 * Real.exp (μ * f * t)) (Icc 0 T) := by
    refine monotoneOn_of_deriv_nonneg (convex_Icc 0 T) (fun t ht => (hd t ht).continuousWithinAt) (fun t ht => ?_) (fun t ht => ?_)
    · rw [interior_Icc] at ht
      exact ((hd t (Ioo_subset_Icc_self ht)).hasDerivAt (Icc_mem_nhds ht.1 ht.2)).differentiableAt.differentiableWithinAt
    · rw [interior_Icc] at ht
      rw [((hd t (Ioo_subset_Icc_self ht)).hasDerivAt (Icc_mem_nhds ht.1 ht.2)).deriv]
      have := h.nonneg ((y t).1 (Fin.last r))
      positivity
  intro t ht
  have := hm ⟨le_rfl, ht.1.trans ht.2⟩ ht ht.1
  simp only [mul_zero, Real.exp_zero, mul_one] at this
  have h3 := h0.trans this
  exact nonneg_of_mul_nonneg_left h3 (Real.exp_pos _)

theorem tankV_ge (h : TankIso κ qs) (hα : 0 ≤ α) (hβ : 0 < β) (hμ : 0 < μ) (hW : ∀ k, 0 < W k)
    {u : (Fin (r + 1) → ℝ) × ℝ} (hc : 0 ≤ u.2) : ∑ k, W k * (β / 2 * u.1 k ^ 2) ≤ tankV κ qs α β μ W u := by
  have h1 : ∀ q, 0 ≤ ∫ s in (0:ℝ)..q, κ s := by
    intro q
    rcases le_total 0 q with hq | hq
    · exact intervalIntegral.integral_nonneg hq fun s _ => h.nonneg s
    · rw [intervalIntegral.integral_symm]
      have : ∫ s in q..(0:ℝ), κ s = ∫ s in q..(0:ℝ), (0:ℝ) := by
        refine intervalIntegral.integral_congr fun s hs => ?_
        rw [uIcc_of_le hq] at hs
        exact h.neg s hs.2
      rw [this]
      simp
  have h2 : 0 ≤ ∫ s in (0:ℝ)..u.2, qs s := intervalIntegral.integral_nonneg hc fun s hs => (h.inv s hs.1).1
  have h3 : 0 ≤ 1 / μ * (α / 2 * u.2 ^ 2 + β * ∫ s in (0:ℝ)..u.2, qs s) := by positivity
  unfold tankV
  have h4 : ∑ k, W k * (β / 2 * u.1 k ^ 2) ≤ ∑ k, W k * (α * (∫ s in (0:ℝ)..u.1 k, κ s) + β / 2 * u.1 k ^ 2) := by
    refine Finset.sum_le_sum fun k _ => mul_le_mul_of_nonneg_left ?_ (hW k).le
    have := mul_nonneg hα (h1 (u.1 k))
    linarith
  linarith

/-- Bound on the loadings and the liquid for all time. -/
noncomputable def tankR (κ qs : ℝ → ℝ) (α β μ : ℝ) (W : Fin (r + 1) → ℝ) (u : (Fin (r + 1) → ℝ) × ℝ) : ℝ :=
  let Q := 1 + 2 / β * tankV κ qs α β μ W u * ∑ k, 1 / W k
  Q + μ * (|tankM μ W u| + Q * ∑ k, W k)

theorem tank_bound (g : Spec.BeadGrid jac B W) (h : TankIso κ qs) (hα : 0 ≤ α) (hβ : 0 < β) (hf : 0 < f) (hμ : 0 < μ)
    {T : ℝ} (hT : 0 ≤ T) (hy : ∀ t ∈ Icc 0 T, HasDerivWithinAt y (tankRhs κ α β f μ B W (y t)) (Icc 0 T) t)
    (h0 : 0 ≤ (y 0).2) :
    0 ≤ (y T).2 ∧ tankM μ W (y T) = tankM μ W (y 0) ∧ tankV κ qs α β μ W (y T) ≤ tankV κ qs α β μ W (y 0) ∧
      ‖y T‖ ≤ tankR κ qs α β μ W (y 0) := by
  have hc := tank_liquid h hf hμ hy h0
  have hVd := fun t (ht : t ∈ Icc 0 T) => tankV_deriv g h hμ.ne' (hy t ht)
  have hMd := fun t (ht : t ∈ Icc 0 T) => tankM_deriv (g.wpos (Fin.last r)).ne' hμ.ne' (hy t ht)
  have hV : tankV κ qs α β μ W (y T) ≤ tankV κ qs α β μ W (y 0) := by
    refine antitoneOn_of_deriv_nonpos (f := fun t => tankV κ qs α β μ W (y t)) (convex_Icc 0 T)
      (fun t ht => (hVd t ht).continuousWithinAt) (fun t ht => ?_) (fun t ht => ?_) ⟨le_rfl, hT⟩ ⟨hT, le_rfl⟩ hT
    · rw [interior_Icc] at ht
      exact ((hVd t (Ioo_subset_Icc_self ht)).hasDerivAt (Icc_mem_nhds ht.1 ht.2)).differentiableAt.differentiableWithinAt
    · rw [interior_Icc] at ht
      rw [((hVd t (Ioo_subset_Icc_self ht)).hasDerivAt (Icc_mem_nhds ht.1 ht.2)).deriv]
      have := tank_diss_nonneg g h hα hβ hf (hc t (Ioo_subset_Icc_self ht))
      linarith
  have hM : tankM μ W (y T) = tankM μ W (y 0) := by
    rcases eq_or_lt_of_le hT with hT0 | hT0
    · rw [← hT0]
    · exact constant_of_has_deriv_right_zero (f := fun t => tankM μ W (y t)) (fun t ht => (hMd t ht).continuousWithinAt)
        (fun t ht => ((hMd t ⟨ht.1, ht.2.le⟩).mono_of_mem_nhdsWithin (Icc_mem_nhdsGE_of_mem ht))) T ⟨hT, le_rfl⟩
  refine ⟨hc T ⟨hT, le_rfl⟩, hM, hV, ?_⟩
  have hge := (tankV_ge h hα hβ hμ g.wpos (hc T ⟨hT, le_rfl⟩)).trans hV
  have hV0 : 0 ≤ tankV κ qs α β μ W (y 0) := by
    refine le_trans (Finset.sum_nonneg fun k _ => ?_) hge
    have := g.wpos k
    positivity
  have hsum1 : 0 ≤ ∑ k, 1 / W k := Finset.sum_nonneg fun k _ => (one_div_pos.2 (g.wpos k)).le
  have hsum2 : 0 ≤ ∑ k, W k := Finset.sum_nonneg fun k _ => (g.wpos k).le
  set V0 := tankV κ qs α β μ W (y 0) with hV0d
  set Q := 1 + 2 / β * V0 * ∑ k, 1 / W k with hQ
  have hQ0 : 0 ≤ Q := by positivity
  have hq : ∀ k, |(y T).1 k| ≤ Q := by
    intro k
    have hw := g.wpos k
    have h1 : W k * (β / 2 * (y T).1 k ^ 2) ≤ V0 := by
      refine le_trans ?_ hge
      exact Finset.single_le_sum (f := fun k => W k * (β / 2 * (y T).1 k ^ 2)) (fun j _ => by have := g.wpos j; positivity)
        (Finset.mem_univ k)
    have h2 : (y T).1 k ^ 2 ≤ 2 / β * V0 * (1 / W k) := by
      have : 2 / β * V0 * (1 / W k) = V0 / (W k * (β / 2)) := by field_simp
      rw [this, le_div_iff₀ (by positivity)]
      linarith
    have h3 : 2 / β * V0 * (1 / W k) ≤ 2 / β * V0 * ∑ k, 1 / W k := by
      refine mul_le_mul_of_nonneg_left ?_ (by positivity)
      exact Finset.single_le_sum (f := fun k => 1 / W k) (fun j _ => (one_div_pos.2 (g.wpos j)).le) (Finset.mem_univ k)
    have h4 : |(y T).1 k| ≤ 1 + (y T).1 k ^ 2 := by
      rw [← sq_abs]
      nlinarith [sq_nonneg (|(y T).1 k| - 1), abs_nonneg ((y T).1 k)]
    linarith
  have hcT : (y T).2 ≤ μ * (|tankM μ W (y 0)| + Q * ∑ k, W k) := by
    have h1 : (y T).2 = μ * (tankM μ W (y T) - ∑ k, W k * (y T).1 k) := by
      unfold tankM; field_simp; ring
    rw [h1, hM]
    refine mul_le_mul_of_nonneg_left ?_ hμ.le
    have h2 := le_abs_self (tankM μ W (y 0))
    have h3 : -(∑ k, W k * (y T).1 k) ≤ Q * ∑ k, W k := by
      rw [← Finset.sum_neg_distrib, Finset.mul_sum]
      refine Finset.sum_le_sum fun k _ => ?_
      have := (abs_le.1 (hq k)).1
      nlinarith [g.wpos k]
    linarith
  have hR : tankR κ qs α β μ W (y 0) = Q + μ * (|tankM μ W (y 0)| + Q * ∑ k, W k) := rfl
  have hR2 : 0 ≤ μ * (|tankM μ W (y 0)| + Q * ∑ k, W k) := by positivity
  rw [hR, Prod.norm_def]
  refine max_le ?_ ?_
  · rw [pi_norm_le_iff_of_nonneg (by positivity)]
    intro k
    rw [Real.norm_eq_abs]
    linarith [hq k]
  · rw [Real.norm_eq_abs, abs_of_nonneg (hc T ⟨hT, le_rfl⟩)]
    linarith

/-- One equilibrium holds a given content. -/
theorem tank_equilibrium (h : TankIso κ qs) (hμ : 0 < μ) {s : ℝ} (hs : 0 < s) (M : ℝ) :
    ∃! q, s * q + 1 / μ * κ q = M := by
  have hmono : StrictMono fun q => s * q + 1 / μ * κ q := by
    intro a b hab
    have h1 := mul_lt_mul_of_pos_left hab hs
    have h2 := mul_le_mul_of_nonneg_left (h.monotone hab.le) (one_div_pos.2 hμ).le
    show s * a + 1 / μ * κ a < s * b + 1 / μ * κ b
    linarith
  have hcont : Continuous fun q => s * q + 1 / μ * κ q := by
    have := h.lip.continuous
    fun_prop
  have hab : -(|M| / s) ≤ |M| / s := by
    have : 0 ≤ |M| / s := by positivity
    linarith
  obtain ⟨q, -, hq⟩ := intermediate_value_Icc hab hcont.continuousOn (show M ∈ Icc _ _ from by
    constructor
    · have h1 : κ (-(|M| / s)) = 0 := h.neg _ (by have : 0 ≤ |M| / s := by positivity
                                                  linarith)
      simp only [h1, mul_zero, add_zero]
      have : s * -(|M| / s) = -|M| := by field_simp
      rw [this]
      exact neg_abs_le M
    · have h1 := mul_nonneg (one_div_pos.2 hμ).le (h.nonneg (|M| / s))
      have : s * (|M| / s) = |M| := by field_simp
      simp only [this]
      linarith [le_abs_self M])
  exact ⟨q, hq, fun q' hq' => hmono.injective (hq'.trans hq.symm)⟩

/-- From every state with nonnegative liquid the tank has a run for all time. -/
theorem tank_global (g : Spec.BeadGrid jac B W) (h : TankIso κ qs) (hα : 0 ≤ α) (hβ : 0 < β) (hf : 0 < f) (hμ : 0 < μ)
    {u : (Fin (r + 1) → ℝ) × ℝ} (h0 : 0 ≤ u.2) :
    ∃ y : ℝ → (Fin (r + 1) → ℝ) × ℝ, y 0 = u ∧
      ∀ t ≥ 0, HasDerivWithinAt y (tankRhs κ α β f μ B W (y t)) (Ici 0) t := by
  refine global_auto (R := tankR κ qs α β μ W u) (tank_lip h B W) (fun T hT y hy0 hy => ?_)
  have := (tank_bound g h hα hβ hf hμ hT hy (by rw [hy0]; exact h0)).2.2.2
  rwa [hy0] at this

/-- Every such run tends to the equilibrium of its content. -/
theorem tank_limit (g : Spec.BeadGrid jac B W) (h : TankIso κ qs) (hα : 0 ≤ α) (hβ : 0 < β) (hf : 0 < f) (hμ : 0 < μ)
    (h0 : 0 ≤ (y 0).2) (hy : ∀ t ≥ 0, HasDerivWithinAt y (tankRhs κ α β f μ B W (y t)) (Ici 0) t) {q : ℝ}
    (hq : (∑ k, W k) * q + 1 / μ * κ q = tankM μ W (y 0)) : Tendsto y atTop (𝓝 (fun _ => q, κ q)) := by
  have hb := fun (T : ℝ) (hT : 0 ≤ T) => tank_bound g h hα hβ hf hμ hT
    (fun t ht => (hy t ht.1).mono Icc_subset_Ici_self) h0
  have hκ := h.lip.continuous
  have hqs := h.cqs
  refine lasalle (tank_lip h B W).continuous hy
    (Z := Metric.closedBall 0 (tankR κ qs α β μ W (y 0)) ∩ {u | 0 ≤ u.2 ∧ tankM μ W u = tankM μ W (y 0)})
    ((isCompact_closedBall _ _).inter_right ?_) (fun t ht => ⟨?_, (hb t ht).1, (hb t ht).2.1⟩)
    (D := tankDiss κ qs α β f jac W) ?_ (fun u hu => tank_diss_nonneg g h hα hβ hf hu.2.1) (fun u hu hu0 => ?_)
    (V := fun t => tankV κ qs α β μ W (y t)) (fun t ht => tankV_deriv g h hμ.ne' (hy t ht)) (b := 0) (fun t ht => ?_)
  · refine (isClosed_le continuous_const continuous_snd).inter (isClosed_eq ?_ continuous_const)
    unfold tankM
    fun_prop
  · rw [mem_closedBall_zero_iff]
    exact (hb t ht).2.2.2
  · refine Continuous.continuousOn ?_
    unfold tankDiss Spec.roughness Spec.grad tankPsi
    fun_prop
  · obtain ⟨h1, h2⟩ := tank_diss_zero g h hα hβ hf hu.2.1 hu0
    have hM := hu.2.2
    have hs : 0 < ∑ k, W k := Finset.sum_pos (fun k _ => g.wpos k) Finset.univ_nonempty
    have e : (∑ k, W k) * u.1 (Fin.last r) + 1 / μ * κ (u.1 (Fin.last r)) = tankM μ W (y 0) := by
      rw [← hM, ← h2]
      unfold tankM
      rw [Finset.sum_mul]
      congr 1
      exact Finset.sum_congr rfl fun k _ => by rw [h1 k]
    have := (tank_equilibrium h hμ hs _).unique e hq
    refine Prod.ext (funext fun k => ?_) ?_
    · rw [h1 k, this]
    · rw [h2, this]
  · refine le_trans (Finset.sum_nonneg fun k _ => ?_) (tankV_ge h hα hβ hμ g.wpos (hb t ht).1)
    have := g.wpos k
    positivity

end tank

/-! ### The contactor -/

variable {m nd : ℕ}

/-- Parameters with a physical meaning. -/
structure Spec.PacPhysical (p : Pac m) (i : Fin m) : Prop where
  eps : 0 < p.epsilon ∧ p.epsilon < 1
  radius : 0 < p.radius
  density : 0 < p.density
  porosity : 0 ≤ p.porosity
  K : 0 < (p.comp i).K
  xni : 0 < (p.comp i).xni ∧ (p.comp i).xni ≤ 1
  kf : 0 < (p.comp i).kf
  Ds : 0 < (p.comp i).Ds ∧ (p.comp i).Ds ≤ (p.comp i).Dp

noncomputable def pacK (p : Pac m) (i : Fin m) (q : ℝ) : ℝ := (max (q / p.rho / (p.comp i).K) 0) ^ (1 / (p.comp i).xni)
noncomputable def pacQ (p : Pac m) (i : Fin m) (c : ℝ) : ℝ := p.rho * (p.comp i).K * (max c 0) ^ (p.comp i).xni
noncomputable def pacAl (p : Pac m) (i : Fin m) : ℝ := p.porosity * ((p.comp i).Dp - (p.comp i).Ds) / p.radius ^ 2
noncomputable def pacBe (p : Pac m) (i : Fin m) : ℝ := (p.comp i).Ds / p.radius ^ 2
noncomputable def pacMu (p : Pac m) : ℝ := 3 * (1 - p.epsilon) / p.epsilon

/-- One compound of a state. -/
def pacView (i : Fin m) (y : PacY nd m) : (Fin (nd + 1) → ℝ) × ℝ := (fun k => y.1 k i, y.2 i)

theorem pac_iso {p : Pac m} {i : Fin m} (h : Spec.PacPhysical p i) : TankIso (pacK p i) (pacQ p i) := by
  have hr : 0 < p.rho := by have := h.density; unfold Pac.rho; positivity
  have hK := h.K
  have hx := h.xni.1
  have hrK : 0 < p.rho * (p.comp i).K := mul_pos hr hK
  refine ⟨?_, ?_, ?_, ?_, ?_⟩
  · unfold pacK
    have hid : LocallyLipschitz fun q : ℝ => q := LocallyLipschitz.id
    exact lip_rpow ((one_le_div hx).2 h.xni.2) ((lip_div (lip_div hid _) _).max_const 0)
  · unfold pacQ
    exact continuous_const.mul ((continuous_id.max continuous_const).rpow_const fun _ => Or.inr hx.le)
  · intro q hq
    unfold pacK
    rw [max_eq_right (div_nonpos_of_nonpos_of_nonneg (div_nonpos_of_nonpos_of_nonneg hq hr.le) hK.le),
      Real.zero_rpow (one_div_pos.2 hx).ne']
  · intro a ha b hb hab
    have ha : (0:ℝ) ≤ a := ha
    have hb : (0:ℝ) ≤ b := hb
    unfold pacK
    rw [max_eq_left (by positivity), max_eq_left (by positivity)]
    exact Real.rpow_lt_rpow (by positivity) (div_lt_div_of_pos_right (div_lt_div_of_pos_right hab hr) hK) (one_div_pos.2 hx)
  · intro c hc
    unfold pacQ pacK
    rw [max_eq_left hc]
    have h1 : 0 ≤ c ^ (p.comp i).xni := Real.rpow_nonneg hc _
    refine ⟨mul_nonneg hrK.le h1, ?_⟩
    have e : p.rho * (p.comp i).K * c ^ (p.comp i).xni / p.rho / (p.comp i).K = c ^ (p.comp i).xni := by
      field_simp
    rw [e, max_eq_left h1, ← Real.rpow_mul hc, mul_one_div_cancel hx.ne', Real.rpow_one]

theorem pac_cp (p : Pac m) (y : PacY nd m) (k : Fin (nd + 1)) (i : Fin m) : p.cp y k i = pacK p i (y.1 k i) := by
  unfold Pac.cp pacK
  simp only
  congr 1
  split
  · rw [max_eq_right (by linarith)]
  · rw [max_eq_left (by linarith)]

/-- Compounds do not see each other. -/
theorem pac_view (p : Pac m) (i : Fin m) (B : Fin (nd + 1) → Fin (nd + 1) → ℝ) (W : Fin (nd + 1) → ℝ) (y : PacY nd m) :
    pacView i (p.rhs B W y) =
      tankRhs (pacK p i) (pacAl p i) (pacBe p i) ((p.comp i).kf / p.radius) (pacMu p) B W (pacView i y) := by
  have hraw : ∀ k, p.rawY B y k i = ∑ l, B k l * tankPsi (pacK p i) (pacAl p i) (pacBe p i) (y.1 l i) := by
    intro k
    unfold Pac.rawY tankPsi pacAl pacBe
    simp only [pac_cp]
    rw [Finset.mul_sum, Finset.mul_sum, ← Finset.sum_add_distrib, Finset.sum_div]
    exact Finset.sum_congr rfl fun l _ => by ring
  unfold pacView Pac.rhs tankRhs Pac.flux
  simp only [hraw, pac_cp]
  refine Prod.ext (funext fun k => ?_) ?_
  · simp only
    split
    · congr 1
      ring
    · rfl
  · simp only [pacMu]
    ring

theorem pac_consts {p : Pac m} {i : Fin m} (h : Spec.PacPhysical p i) :
    0 ≤ pacAl p i ∧ 0 < pacBe p i ∧ 0 < (p.comp i).kf / p.radius ∧ 0 < pacMu p := by
  have h1 := h.radius
  have h2 := h.Ds
  have h3 := sub_nonneg.2 h2.2
  have h4 := h.porosity
  have h5 := h2.1
  have h6 := h.kf
  have h7 := h.eps.1
  have h8 := sub_pos.2 h.eps.2
  unfold pacAl pacBe pacMu
  exact ⟨by positivity, by positivity, by positivity, by positivity⟩

theorem pacView_deriv {S : Set ℝ} {y : ℝ → PacY nd m} {F : PacY nd m} {t : ℝ} (h : HasDerivWithinAt y F S t) (i : Fin m) :
    HasDerivWithinAt (fun t => pacView i (y t)) (pacView i F) S t := by
  have h1 := hasDerivWithinAt_iff_hasFDerivWithinAt.1 h
  have h2 : HasDerivWithinAt (fun t => (y t).1) F.1 S t := by
    have := h1.fst.hasDerivWithinAt
    simpa using this
  have h3 : HasDerivWithinAt (fun t => (y t).2) F.2 S t := by
    have := h1.snd.hasDerivWithinAt
    simpa using this
  exact (hasDerivWithinAt_pi.2 fun k => hasDerivWithinAt_pi.1 (hasDerivWithinAt_pi.1 h2 k) i).prodMk
    (hasDerivWithinAt_pi.1 h3 i)

theorem pacAmount_tank {p : Pac m} {i : Fin m} (h : Spec.PacPhysical p i) (W : Fin (nd + 1) → ℝ) (y : PacY nd m) :
    Spec.pacAmount p.epsilon W y i = 3 * (1 - p.epsilon) * tankM (pacMu p) W (pacView i y) := by
  have h1 := h.eps.1.ne'
  have h2 := (sub_pos.2 h.eps.2).ne'
  unfold Spec.pacAmount tankM pacMu pacView
  simp only
  field_simp
  ring

/-- A run of the contactor for all time. -/
def Spec.PacRun (p : Pac m) (B : Fin (nd + 1) → Fin (nd + 1) → ℝ) (W : Fin (nd + 1) → ℝ) (y : ℝ → PacY nd m) : Prop :=
  ∀ T, Spec.Solves pacComp (fun _ u => p.rhs B W u) 0 T y

theorem pacRun_view {p : Pac m} {B : Fin (nd + 1) → Fin (nd + 1) → ℝ} {W : Fin (nd + 1) → ℝ} {y : ℝ → PacY nd m}
    (h : Spec.PacRun p B W y) (i : Fin m) : ∀ t ≥ 0, HasDerivWithinAt (fun t => pacView i (y t))
      (tankRhs (pacK p i) (pacAl p i) (pacBe p i) ((p.comp i).kf / p.radius) (pacMu p) B W (pacView i (y t))) (Ici 0) t := by
  intro t ht
  have h1 := solves_pac.1 (h (t + 1)) t ⟨ht, by linarith⟩
  rw [← pac_view]
  refine (pacView_deriv h1 i).mono_of_mem_nhdsWithin ?_
  filter_upwards [self_mem_nhdsWithin, nhdsWithin_le_nhds (Iio_mem_nhds (show t < t + 1 by linarith))] with s hs hs'
  exact ⟨hs, le_of_lt hs'⟩

variable {jac : Fin nd → ℝ} {B : Fin (nd + 1) → Fin (nd + 1) → ℝ} {W : Fin (nd + 1) → ℝ}

/-- C212. From every state without negative concentrations in the water the contactor has a run for all time, and no other:
nothing runs off to infinity. -/
theorem c212_global (p : Pac m) (hp : ∀ i, Spec.PacPhysical p i) (g : Spec.BeadGrid jac B W) (u : PacY nd m)
    (hu : ∀ i, 0 ≤ u.2 i) :
    ∃ y, y 0 = u ∧ Spec.PacRun p B W y ∧ ∀ y', y' 0 = u → Spec.PacRun p B W y' → ∀ t ≥ 0, y' t = y t := by
  have hex := fun i => tank_global g (pac_iso (hp i)) (pac_consts (hp i)).1 (pac_consts (hp i)).2.1 (pac_consts (hp i)).2.2.1
    (pac_consts (hp i)).2.2.2 (u := pacView i u) (hu i)
  choose s hs0 hs using hex
  have hrun : Spec.PacRun p B W (fun t => (fun k i => (s i t).1 k, fun i => (s i t).2)) := by
    intro T t ht a
    have hv : ∀ i, pacView i (p.rhs B W (fun k i => (s i t).1 k, fun i => (s i t).2)) = _ := fun i => pac_view p i B W _
    have hv2 : ∀ i, pacView i ((fun k i => (s i t).1 k, fun i => (s i t).2) : PacY nd m) = s i t := fun i => rfl
    rcases a with ⟨k, i⟩ | i
    · have h1 := (tank_parts ((hs i t ht.1).mono (Icc_subset_Ici_self : Icc 0 T ⊆ Ici 0))).1 k
      have h2 := congrArg (fun v => v.1 k) (hv i)
      rw [hv2] at h2
      exact h1.congr_deriv h2.symm
    · have h1 := (tank_parts ((hs i t ht.1).mono (Icc_subset_Ici_self : Icc 0 T ⊆ Ici 0))).2
      have h2 := congrArg (fun v => v.2) (hv i)
      rw [hv2] at h2
      exact h1.congr_deriv h2.symm
  have h0 : ((fun k i => (s i 0).1 k, fun i => (s i 0).2) : PacY nd m) = u := by
    refine Prod.ext (funext fun k => funext fun i => ?_) (funext fun i => ?_)
    · show (s i 0).1 k = _
      rw [hs0]; rfl
    · show (s i 0).2 = _
      rw [hs0]; rfl
  refine ⟨_, h0, hrun, fun y' hy0 hy' t ht => ?_⟩
  exact c211_pac_unique p (fun i => (hp i).xni) B W (hy' t) (hrun t) (hy0.trans h0.symm) t ⟨ht, le_rfl⟩

/-- C212. Every run tends to an equilibrium: the loadings of each compound become uniform, and the water is in equilibrium
with them and holds what they do not. -/
theorem c212_limit (p : Pac m) {i : Fin m} (hp : Spec.PacPhysical p i) (g : Spec.BeadGrid jac B W) {y : ℝ → PacY nd m}
    (hy : Spec.PacRun p B W y) (h0 : 0 ≤ (y 0).2 i) :
    ∃ e : PacY nd m, (∀ k, Tendsto (fun t => (y t).1 k i) atTop (𝓝 (e.1 k i))) ∧
      Tendsto (fun t => (y t).2 i) atTop (𝓝 (e.2 i)) ∧ (∀ k l, e.1 k i = e.1 l i) ∧
      p.cp e (Fin.last nd) i = e.2 i ∧ Spec.pacAmount p.epsilon W e i = Spec.pacAmount p.epsilon W (y 0) i := by
  have hc := pac_consts hp
  have hs : 0 < ∑ k, W k := Finset.sum_pos (fun k _ => g.wpos k) Finset.univ_nonempty
  obtain ⟨q, hq, -⟩ := tank_equilibrium (pac_iso hp) hc.2.2.2 hs (tankM (pacMu p) W (pacView i (y 0)))
  have hl := tank_limit g (pac_iso hp) hc.1 hc.2.1 hc.2.2.1 hc.2.2.2 (y := fun t => pacView i (y t)) h0 (pacRun_view hy i) hq
  refine ⟨(fun _ _ => q, fun _ => pacK p i q), fun k => ?_, ?_, fun _ _ => rfl, pac_cp p _ _ i, ?_⟩
  · exact (tendsto_pi_nhds.1 ((continuous_fst.tendsto _).comp hl)) k
  · exact (continuous_snd.tendsto _).comp hl
  · rw [pacAmount_tank hp, pacAmount_tank hp, ← hq]
    unfold tankM pacView
    simp only
    rw [Finset.sum_mul]

/-- C212. The concentration left in the end, as a fraction of the influent. -/
theorem c212_final (p : Pac m) {i : Fin m} (hp : Spec.PacPhysical p i) :
    ∃! c, 0 ≤ c ∧ p.epsilon * c + (1 - p.epsilon) * (p.density * 1000 * ((p.comp i).K * c ^ (p.comp i).xni)) = p.epsilon := by
  have hE := hp.eps
  have h1 := sub_pos.2 hE.2
  have h2 := hp.density
  have h3 := hp.K
  have hx := hp.xni.1
  have hmono : StrictMonoOn (fun c : ℝ => p.epsilon * c + (1 - p.epsilon) * (p.density * 1000 * ((p.comp i).K * c ^ (p.comp i).xni)))
      (Ici 0) := by
    intro a ha b hb hab
    have e1 := mul_lt_mul_of_pos_left hab hE.1
    have e2 : (1 - p.epsilon) * (p.density * 1000 * ((p.comp i).K * a ^ (p.comp i).xni)) ≤
        (1 - p.epsilon) * (p.density * 1000 * ((p.comp i).K * b ^ (p.comp i).xni)) := by
      have := Real.rpow_le_rpow ha hab.le hx.le
      gcongr
    exact add_lt_add_of_lt_of_le e1 e2
  have hcont : Continuous (fun c : ℝ => p.epsilon * c + (1 - p.epsilon) * (p.density * 1000 * ((p.comp i).K * c ^ (p.comp i).xni))) := by
    have := Real.continuous_rpow_const hx.le
    fun_prop
  obtain ⟨c, hc, hce⟩ := intermediate_value_Icc zero_le_one hcont.continuousOn (show p.epsilon ∈ Icc _ _ from by
    constructor
    · simp only [Real.zero_rpow hx.ne', mul_zero, add_zero]
      exact hE.1.le
    · simp only [Real.one_rpow, mul_one]
      have : 0 ≤ (1 - p.epsilon) * (p.density * 1000 * (p.comp i).K) := by positivity
      linarith)
  exact ⟨c, ⟨hc.1, hce⟩, fun c' hc' => hmono.injOn hc'.1 hc.1 (hc'.2.trans hce.symm)⟩

/-- C212. So the effluent of a run as the code starts it tends to the concentration that closes the mass balance with the
isotherm at the relative concentration, whatever the film, pore and surface diffusion coefficients and the grid. -/
theorem c212_start (p : Pac m) {i : Fin m} (hp : Spec.PacPhysical p i) (g : Spec.BeadGrid jac B W) {y : ℝ → PacY nd m}
    (hy : Spec.PacRun p B W y) (h0 : y 0 = pacInit) {c : ℝ} (hc0 : 0 ≤ c)
    (hc : p.epsilon * c + (1 - p.epsilon) * (p.density * 1000 * ((p.comp i).K * c ^ (p.comp i).xni)) = p.epsilon) :
    Tendsto (fun t => (p.comp i).C0 * (y t).2 i) atTop (𝓝 ((p.comp i).C0 * c)) ∧
      ∀ k, Tendsto (fun t => (y t).1 k i) atTop (𝓝 (p.density * 1000 * ((p.comp i).K * c ^ (p.comp i).xni))) := by
  have hk := pac_consts hp
  have hE := hp.eps.1.ne'
  have hE1 := (sub_pos.2 hp.eps.2).ne'
  set q := p.density * 1000 * ((p.comp i).K * c ^ (p.comp i).xni) with hq
  have hW3 : ∑ k, W k = 1 / 3 := by
    rw [g.weights]
    exact (c17_positive_sum (Nat.succ_pos nd) (radialNodes_inj g.zeros.1 (fun i => (g.zeros.2.1 i).2))
      (radialNodes_pos (fun i => (g.zeros.2.1 i).1)) (by norm_num : (0:ℝ) < 3)).2
  have hqs : q = pacQ p i c := by
    unfold pacQ Pac.rho
    rw [max_eq_left hc0, hq]
    ring
  have hκ : pacK p i q = c := by rw [hqs]; exact ((pac_iso hp).inv c hc0).2
  have hin : (∑ k, W k) * q + 1 / pacMu p * pacK p i q = tankM (pacMu p) W (pacView i (y 0)) := by
    rw [hκ, hW3, h0]
    unfold tankM pacView pacInit pacMu
    simp only [mul_zero, Finset.sum_const_zero, zero_add, mul_one]
    field_simp
    linear_combination hc
  have hl := tank_limit g (pac_iso hp) hk.1 hk.2.1 hk.2.2.1 hk.2.2.2 (y := fun t => pacView i (y t))
    (by rw [h0]; exact zero_le_one) (pacRun_view hy i) hin
  rw [hκ] at hl
  exact ⟨((continuous_snd.tendsto _).comp hl).const_mul _, fun k => (tendsto_pi_nhds.1 ((continuous_fst.tendsto _).comp hl)) k⟩

/-- C212. A compound is at rest exactly when it is uniform on the carbon and in equilibrium with the water. -/
theorem c212_rest (p : Pac m) {i : Fin m} (hp : Spec.PacPhysical p i) (g : Spec.BeadGrid jac B W) (u : PacY nd m) :
    ((∀ k, (p.rhs B W u).1 k i = 0) ∧ (p.rhs B W u).2 i = 0) ↔
      (∀ k l, u.1 k i = u.1 l i) ∧ p.cp u (Fin.last nd) i = u.2 i := by
  have hk := pac_consts hp
  have hv := pac_view p i B W u
  rw [pac_cp]
  constructor
  · rintro ⟨h1, h2⟩
    have hz : tankRhs (pacK p i) (pacAl p i) (pacBe p i) ((p.comp i).kf / p.radius) (pacMu p) B W (pacView i u) = (fun _ => 0, 0) := by
      rw [← hv]
      exact Prod.ext (funext h1) h2
    have hliq : u.2 i = pacK p i (u.1 (Fin.last nd) i) := by
      have h3 := congrArg Prod.snd hz
      have h4 : pacMu p * ((p.comp i).kf / p.radius * (u.2 i - pacK p i (u.1 (Fin.last nd) i))) = 0 := neg_eq_zero.1 h3
      have h5 := (mul_eq_zero.1 ((mul_eq_zero.1 h4).resolve_left hk.2.2.2.ne')).resolve_left hk.2.2.1.ne'
      linarith
    have hc : 0 ≤ (pacView i u).2 := by
      show 0 ≤ u.2 i
      rw [hliq]; exact (pac_iso hp).nonneg _
    have hd := tank_rate (κ := pacK p i) (qs := pacQ p i) (α := pacAl p i) (β := pacBe p i) (f := (p.comp i).kf / p.radius) g
      hk.2.2.2.ne' (pacView i u)
    rw [hz] at hd
    simp only [mul_zero, Finset.sum_const_zero, add_zero] at hd
    have h6 := tank_diss_zero g (pac_iso hp) hk.1 hk.2.1 hk.2.2.1 hc (by linarith)
    exact ⟨fun k l => (h6.1 k).trans (h6.1 l).symm, hliq.symm⟩
  · rintro ⟨h1, h2⟩
    have hψ : ∀ k, ∑ l, B k l * tankPsi (pacK p i) (pacAl p i) (pacBe p i) ((pacView i u).1 l) = 0 := by
      intro k
      have : ∀ l, (pacView i u).1 l = u.1 k i := fun l => h1 l k
      simp only [this]
      rw [← Finset.sum_mul, g.rows, zero_mul]
    have hz : tankRhs (pacK p i) (pacAl p i) (pacBe p i) ((p.comp i).kf / p.radius) (pacMu p) B W (pacView i u) = (fun _ => 0, 0) := by
      unfold tankRhs
      simp only [hψ, mul_zero, Finset.sum_const_zero, sub_zero]
      have : (pacView i u).2 - pacK p i ((pacView i u).1 (Fin.last nd)) = 0 := by
        show u.2 i - pacK p i (u.1 (Fin.last nd) i) = 0
        rw [h2, sub_self]
      rw [this]
      simp
    rw [← hv] at hz
    exact ⟨fun k => congrFun (congrArg Prod.fst hz) k, congrArg Prod.snd hz⟩

/-- A contactor and a grid that qualify. -/
theorem exPac_physical (i : Fin 1) : Spec.PacPhysical exPac i := by
  refine ⟨?_, ?_, ?_, ?_, ?_, ?_, ?_, ?_⟩
  · rw [exPac_eps]; norm_num
  · show (0:ℝ) < 0.001; norm_num
  · show (0:ℝ) < 0.5; norm_num
  · show (0:ℝ) ≤ 0.6; norm_num
  · show (0:ℝ) < 100; norm_num
  · show (0:ℝ) < 1 / 2 ∧ (1 / 2 : ℝ) ≤ 1; norm_num
  · show (0:ℝ) < 0.01; norm_num
  · show (0:ℝ) < 1e-11 ∧ (1e-11:ℝ) ≤ 1e-6; norm_num

example : (∀ i, Spec.PacPhysical exPac i) ∧ (∀ nd, ∃ jac B W, Spec.BeadGrid (r := nd) jac B W) ∧
    ∀ i, (0:ℝ) ≤ (pacInit : PacY nd 1).2 i :=
  ⟨exPac_physical, beadGrid_exists, fun _ => zero_le_one⟩

end WTM
