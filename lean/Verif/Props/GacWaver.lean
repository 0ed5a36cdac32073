import Verif.Lemmas.LocalPush
import Verif.Props.GacLimit

/-! Property C272: near exhaustion a carbon column with one compound follows a wavering influent with a bounded gain, forgets its start, and
tends to exhaustion when the influent settles. -/
set_option autoImplicit false
namespace WTM
open BigOperators Set Topology Filter

section
variable {r z : ℕ}

/-- What one unit of excess of the influent adds to the rates of the excesses. -/
noncomputable def bedPush (f κ : ℝ) (A : Fin (z + 1) → Fin (z + 1) → ℝ) (W : Fin (r + 1) → ℝ) : BedExc r z :=
  (fun k => if k = Fin.last r then f / W (Fin.last r) else 0, fun w => (0, -(κ * A w.succ 0)))

section
variable {φ : ℝ → ℝ} {a α b f μ κ : ℝ} {jac : Fin r → ℝ} {B : Fin (r + 1) → Fin (r + 1) → ℝ} {W : Fin (r + 1) → ℝ}
  {A : Fin (z + 1) → Fin (z + 1) → ℝ} {G : Fin z → Fin z → ℝ}

/-- A column with any smooth isotherm near exhaustion, under a wavering influent. -/
theorem bed_waver (g : Spec.BeadGrid jac B W) (hA : Spec.MovesAll A) (hG : AxialForm A G) (hφ : HasDerivAt φ a 0) (h0 : φ 0 = 0)
    (ha : 0 < a) (hβ : 0 < α * a + b) (hf : 0 < f) (hμ : 0 < μ) (hκ : 0 < κ) (P : BedExc r z) :
    ∃ δ C ω : ℝ, 0 < δ ∧ 0 < C ∧ 0 < ω ∧
      (∀ (x : ℝ → BedExc r z) (d : ℝ → ℝ) (T β : ℝ),
        (∀ t ∈ Icc 0 T, HasDerivWithinAt x (bedRhs φ α b f μ κ A B W (x t) + d t • P) (Icc 0 T) t) → (∀ t ∈ Icc 0 T, |d t| ≤ β) →
        ‖x 0‖ ≤ δ → β ≤ δ → ∀ t ∈ Icc 0 T, ‖x t‖ ≤ C * (Real.exp (-(ω * t)) * ‖x 0‖ + β)) ∧
      ∀ (x : ℝ → BedExc r z) (d : ℝ → ℝ),
        (∀ T, ∀ t ∈ Icc 0 T, HasDerivWithinAt x (bedRhs φ α b f μ κ A B W (x t) + d t • P) (Icc 0 T) t) → (∀ t, 0 ≤ t → |d t| ≤ δ) →
        ‖x 0‖ ≤ δ → Tendsto d atTop (𝓝 0) → Tendsto x atTop (𝓝 0) := by
  obtain ⟨C, ω, hC, hω, hM⟩ := bed_settle (a := a) (μ := μ) g hA hG ha hβ hf hμ hκ
  have hN := bed_small (α := α) (f := f) (μ := μ) (B := B) (W := W) (z := z) hφ h0
  have hF : ∀ η > 0, ∃ δ > 0, ∀ u : BedExc r z, ‖u‖ ≤ δ → ‖bedRhs φ α b f μ κ A B W u - bedCL a (α * a + b) f μ κ A B W u‖ ≤ η * ‖u‖ := by
    intro η hη
    obtain ⟨δ, hδ, h⟩ := hN η hη
    exact ⟨δ, hδ, fun u hu => by rw [bed_split (a := a), add_sub_cancel_left]; exact h u hu⟩
  obtain ⟨δ, K, ν, hδ, hK, hν, h1, h2⟩ := near_waver hω hC hM hF (norm_nonneg P)
  refine ⟨δ, K, ν, hδ, hK, hν, fun x d T β hx hd hx0 hβδ t ht => ?_, fun x d hx hd hx0 hlim => ?_⟩
  · exact h1 x (fun t => d t • P) T β hx ((abs_nonneg _).trans (hd t ht)) (fun s hs => by
      rw [norm_smul, Real.norm_eq_abs, mul_comm]
      exact mul_le_mul_of_nonneg_left (hd s hs) (norm_nonneg P)) hx0 hβδ t ht
  · exact h2 x (fun t => d t • P) hx (fun s hs => by
      rw [norm_smul, Real.norm_eq_abs, mul_comm]
      exact mul_le_mul_of_nonneg_left (hd s hs) (norm_nonneg P)) hx0 (by simpa using hlim.smul_const P)

end

variable {D : GacDim 1 r z} {jac : Fin r → ℝ} {c fo fa : ℝ}

/-- The rates of the code under an influent `s`. -/
theorem gac_rates_in (h : Spec.SpentSetting D jac c fo fa) (s : ℝ) (u : GacState 1 r z) :
    (((fun k => gacRhs D (fun _ => s) (fun _ => fo) (fun _ => fa) u 0 k.castSucc 0),
      fun w => ((fun k => gacRhs D (fun _ => s) (fun _ => fo) (fun _ => fa) u 0 k.castSucc w.succ),
        gacRhs D (fun _ => s) (fun _ => fo) (fun _ => fa) u 0 (Fin.last (r + 1)) w.succ)) : BedExc r z) =
    bedRhs (gacIso (D.xn 0) fo (Spec.spentLoad (D.xn 0) fo c)) (D.bedp 0 * fa) (D.beds 0) (D.stdv 0 * D.dgI 0) (3 / D.dgI 0) D.dg1
      D.az D.br D.wr (gacExc c (Spec.spentLoad (D.xn 0) fo c) u) + (s - c) • bedPush (D.stdv 0 * D.dgI 0) D.dg1 D.az D.wr := by
  rw [← gac_rates h]
  refine Prod.ext (funext fun k => ?_) (funext fun w => Prod.ext (funext fun k => ?_) ?_)
  · simp only [Prod.fst_add, Prod.smul_fst, bedPush, Pi.add_apply, Pi.smul_apply, smul_eq_mul, gacRhs_bead, gacBead, if_true]
    by_cases hk : k = Fin.last r
    · simp only [hk, if_true]
      ring
    · simp only [if_neg hk]
      ring
  · simp [bedPush, gacRhs_bead, gacBead]
  · simp only [Prod.snd_add, Prod.smul_snd, bedPush, Pi.add_apply, Pi.smul_apply, smul_eq_mul, gacRhs_liq, gacLiq, Fin.succ_ne_zero, if_false]
    ring

theorem gacExc_solves (h : Spec.SpentSetting D jac c fo fa) {s : ℝ → ℝ} {T : ℝ} {y : ℝ → GacState 1 r z}
    (hy : Spec.Solves gacComp (fun t u => gacRhs D (fun _ => s t) (fun _ => fo) (fun _ => fa) u) 0 T y) :
    ∀ t ∈ Icc 0 T, HasDerivWithinAt (fun t => gacExc c (Spec.spentLoad (D.xn 0) fo c) (y t))
      (bedRhs (gacIso (D.xn 0) fo (Spec.spentLoad (D.xn 0) fo c)) (D.bedp 0 * fa) (D.beds 0) (D.stdv 0 * D.dgI 0) (3 / D.dgI 0) D.dg1
        D.az D.br D.wr (gacExc c (Spec.spentLoad (D.xn 0) fo c) (y t)) + (s t - c) • bedPush (D.stdv 0 * D.dgI 0) D.dg1 D.az D.wr)
      (Icc 0 T) t := by
  intro t ht
  rw [← gac_rates_in h]
  refine HasDerivWithinAt.prodMk (hasDerivWithinAt_pi.2 fun k => ?_) (hasDerivWithinAt_pi.2 fun w =>
    HasDerivWithinAt.prodMk (hasDerivWithinAt_pi.2 fun k => ?_) ?_)
  · exact (hy t ht (0, k.castSucc, 0)).sub_const _
  · exact (hy t ht (0, k.castSucc, w.succ)).sub_const _
  · exact (hy t ht (0, Fin.last (r + 1), w.succ)).sub_const _

/-- Specification: all waters below the inlet tend to `c`, all loadings to `q`. -/
def Spec.GacTends (c q : ℝ) (y : ℝ → GacState 1 r z) : Prop :=
  (∀ w, w ≠ 0 → Tendsto (fun t => y t 0 (Fin.last (r + 1)) w) atTop (nhds c)) ∧
    ∀ (k : Fin (r + 1)) w, Tendsto (fun t => y t 0 k.castSucc w) atTop (nhds q)

theorem gacTends_of {q : ℝ} {y : ℝ → GacState 1 r z} (h : Tendsto (fun t => gacExc c q (y t)) atTop (𝓝 0)) : Spec.GacTends c q y := by
  have key : ∀ (f : ℝ → ℝ) (b : ℝ), (∀ t, |f t - b| ≤ ‖gacExc c q (y t)‖) → Tendsto f atTop (nhds b) := fun f b hf => by
    rw [tendsto_iff_dist_tendsto_zero]
    exact squeeze_zero (fun t => dist_nonneg) (fun t => by rw [Real.dist_eq]; exact hf t) (tendsto_zero_iff_norm_tendsto_zero.1 h)
  have hw := fun t => (gacExc_norm (norm_nonneg (gacExc c q (y t)))).1 le_rfl
  exact ⟨fun w hw0 => key _ _ fun t => (hw t).2 w hw0, fun k w => key _ _ fun t => (hw t).1 k w⟩

/-- Both bounds with the same constants. -/
theorem gac_waver (h : Spec.SpentSetting D jac c fo fa) : ∃ δ C ω : ℝ, 0 < δ ∧ 0 < C ∧ 0 < ω ∧
    (∀ (ε β T : ℝ) (s : ℝ → ℝ) (y : ℝ → GacState 1 r z),
      Spec.Solves gacComp (fun t u => gacRhs D (fun _ => s t) (fun _ => fo) (fun _ => fa) u) 0 T y → (∀ t ∈ Icc 0 T, |s t - c| ≤ β) →
      Spec.GacWithin c (Spec.spentLoad (D.xn 0) fo c) ε (y 0) → ε ≤ δ → β ≤ δ →
      ∀ t ∈ Icc 0 T, Spec.GacWithin c (Spec.spentLoad (D.xn 0) fo c) (C * (Real.exp (-(ω * t)) * ε + β)) (y t)) ∧
    ∀ (s : ℝ → ℝ) (y : ℝ → GacState 1 r z),
      (∀ T, Spec.Solves gacComp (fun t u => gacRhs D (fun _ => s t) (fun _ => fo) (fun _ => fa) u) 0 T y) → (∀ t, 0 ≤ t → |s t - c| ≤ δ) →
      Spec.GacWithin c (Spec.spentLoad (D.xn 0) fo c) δ (y 0) → Tendsto s atTop (𝓝 c) → Spec.GacTends c (Spec.spentLoad (D.xn 0) fo c) y := by
  obtain ⟨a, ha, hd⟩ := gacIso_deriv h
  obtain ⟨G, hG⟩ := axial_form h.axial
  have hb := h.ok.beds
  have hbp := h.ok.bedp
  have hfa := h.tortuosity
  obtain ⟨δ, C, ω, hδ, hC, hω, h1, h2⟩ := bed_waver (α := D.bedp 0 * fa) (b := D.beds 0) (f := D.stdv 0 * D.dgI 0) (μ := 3 / D.dgI 0) (κ := D.dg1)
    h.beads (axial_moves h.axial) hG hd (by unfold gacIso; rw [add_zero, sub_self]) ha (by positivity) (mul_pos h.ok.stdv h.ok.dgI)
    (div_pos (by norm_num) h.ok.dgI) h.flow (bedPush (D.stdv 0 * D.dgI 0) D.dg1 D.az D.wr)
  refine ⟨δ, C, ω, hδ, hC, hω, fun ε β T s y hy hs h0 hε hβ t ht => ?_, fun s y hy hs h0 hlim => ?_⟩
  · have hε0 : 0 ≤ ε := (abs_nonneg _).trans (h0.1 0 0)
    have hβ0 : 0 ≤ β := (abs_nonneg _).trans (hs t ht)
    have hn := (gacExc_norm hε0).2 h0
    have := h1 _ (fun t => s t - c) T β (gacExc_solves h hy) hs (hn.trans hε) hβ t ht
    refine (gacExc_norm (by positivity)).1 (this.trans (mul_le_mul_of_nonneg_left (add_le_add ?_ le_rfl) hC.le))
    exact mul_le_mul_of_nonneg_left hn (Real.exp_pos _).le
  · refine gacTends_of (h2 _ (fun t => s t - c) (fun T => gacExc_solves h (hy T)) hs ((gacExc_norm hδ.le).2 h0) ?_)
    simpa using hlim.sub_const c

/-- C272. There are constants of the column, of `c`, and of the fouling and tortuosity factors such that, while the influent stays within `β`
of `c` and the start is within `ε` of exhaustion by `c`, both at most `δ`, all waters and loadings stay within `C (exp (-ωt) ε + β)` of it:
the start is forgotten, what remains is proportional to the wavering of the influent. -/
theorem c272_gain (h : Spec.SpentSetting D jac c fo fa) : ∃ δ C ω : ℝ, 0 < δ ∧ 0 < C ∧ 0 < ω ∧
    ∀ (ε β T : ℝ) (s : ℝ → ℝ) (y : ℝ → GacState 1 r z),
      Spec.Solves gacComp (fun t u => gacRhs D (fun _ => s t) (fun _ => fo) (fun _ => fa) u) 0 T y → (∀ t ∈ Icc 0 T, |s t - c| ≤ β) →
      Spec.GacWithin c (Spec.spentLoad (D.xn 0) fo c) ε (y 0) → ε ≤ δ → β ≤ δ →
      ∀ t ∈ Icc 0 T, Spec.GacWithin c (Spec.spentLoad (D.xn 0) fo c) (C * (Real.exp (-(ω * t)) * ε + β)) (y t) := by
  obtain ⟨δ, C, ω, hδ, hC, hω, h1, -⟩ := gac_waver h
  exact ⟨δ, C, ω, hδ, hC, hω, h1⟩

/-- C272. A column that starts near exhaustion by `c`, under an influent that stays near `c` and tends to it, tends to exhaustion. -/
theorem c272_tends (h : Spec.SpentSetting D jac c fo fa) : ∃ δ : ℝ, 0 < δ ∧ ∀ (s : ℝ → ℝ) (y : ℝ → GacState 1 r z),
    (∀ T, Spec.Solves gacComp (fun t u => gacRhs D (fun _ => s t) (fun _ => fo) (fun _ => fa) u) 0 T y) → (∀ t, 0 ≤ t → |s t - c| ≤ δ) →
    Spec.GacWithin c (Spec.spentLoad (D.xn 0) fo c) δ (y 0) → Tendsto s atTop (𝓝 c) → Spec.GacTends c (Spec.spentLoad (D.xn 0) fo c) y := by
  obtain ⟨δ, -, -, hδ, -, -, -, h2⟩ := gac_waver h
  exact ⟨δ, hδ, h2⟩

theorem gac_shift_in {D : GacDim 1 r z} {s : ℝ → ℝ} {y : ℝ → GacState 1 r z} {s0 T : ℝ} (hs : 0 ≤ s0)
    (hy : Spec.Solves gacComp (fun t u => gacRhs D (fun _ => s t) (fun _ => fo) (fun _ => fa) u) 0 (s0 + T) y) :
    Spec.Solves gacComp (fun t u => gacRhs D (fun _ => s (s0 + t)) (fun _ => fo) (fun _ => fa) u) 0 T (fun t => y (s0 + t)) := by
  intro t ht a
  have h1 := hy (s0 + t) ⟨by linarith [ht.1], by linarith [ht.2]⟩ a
  have h2 : HasDerivWithinAt (fun τ : ℝ => s0 + τ) 1 (Icc 0 T) t := ((hasDerivAt_id t).const_add s0).hasDerivWithinAt
  have h3 := HasDerivWithinAt.comp (h := fun τ : ℝ => s0 + τ) t h1 h2 (fun τ hτ => ⟨by linarith [hτ.1], by linarith [hτ.2]⟩)
  rw [mul_one] at h3
  exact h3

/-- C272. Whatever its start and the past of an influent that settles at `c`, a run for all time either keeps away from exhaustion by `c` from
some time on, by `δ` in some loading or concentration, or tends to it. -/
theorem c272_either (h : Spec.SpentSetting D jac c fo fa) : ∃ δ : ℝ, 0 < δ ∧ ∀ (s : ℝ → ℝ) (y : ℝ → GacState 1 r z),
    (∀ T, Spec.Solves gacComp (fun t u => gacRhs D (fun _ => s t) (fun _ => fo) (fun _ => fa) u) 0 T y) → Tendsto s atTop (𝓝 c) →
    (∃ s0, ∀ t, s0 ≤ t → ¬ Spec.GacWithin c (Spec.spentLoad (D.xn 0) fo c) δ (y t)) ∨ Spec.GacTends c (Spec.spentLoad (D.xn 0) fo c) y := by
  obtain ⟨δ, hδ, h2⟩ := c272_tends h
  refine ⟨δ, hδ, fun s y hy hlim => ?_⟩
  obtain ⟨s1, hs1⟩ := eventually_atTop.1 (hlim.eventually (Metric.closedBall_mem_nhds c hδ))
  by_cases hw : ∃ s0, max 0 s1 ≤ s0 ∧ Spec.GacWithin c (Spec.spentLoad (D.xn 0) fo c) δ (y s0)
  · obtain ⟨s0, hs0, hw⟩ := hw
    right
    have h00 : 0 ≤ s0 := (le_max_left _ _).trans hs0
    have hsh : Tendsto (fun t : ℝ => t - s0) atTop atTop := tendsto_atTop_add_const_right _ (-s0) tendsto_id
    have hsh' : Tendsto (fun t : ℝ => s0 + t) atTop atTop := tendsto_atTop_add_const_left _ s0 tendsto_id
    have ht := h2 (fun t => s (s0 + t)) (fun t => y (s0 + t)) (fun T => gac_shift_in h00 (hy _)) (fun t ht => by
      have := hs1 (s0 + t) (by have := le_max_right 0 s1; linarith)
      rwa [Real.dist_eq] at this) (by rw [add_zero]; exact hw) (hlim.comp hsh')
    refine ⟨fun w hw => ((ht.1 w hw).comp hsh).congr fun t => ?_, fun k w => ((ht.2 k w).comp hsh).congr fun t => ?_⟩
    · show y (s0 + (t - s0)) _ _ _ = _
      rw [add_sub_cancel]
    · show y (s0 + (t - s0)) _ _ _ = _
      rw [add_sub_cancel]
  · left
    push Not at hw
    exact ⟨max 0 s1, hw⟩

/-- C272. Under an influent that varies continuously there is a run for all time from every state, and exactly one. -/
theorem c272_run (h : Spec.SpentSetting D jac c fo fa) {s : ℝ → ℝ} (hs : Continuous s) (u : GacState 1 r z) :
    ∃ y : ℝ → GacState 1 r z, y 0 = u ∧
    (∀ T, Spec.Solves gacComp (fun t u => gacRhs D (fun _ => s t) (fun _ => fo) (fun _ => fa) u) 0 T y) ∧
    ∀ T x, Spec.Solves gacComp (fun t u => gacRhs D (fun _ => s t) (fun _ => fo) (fun _ => fa) u) 0 T x → x 0 = u → ∀ t ∈ Icc 0 T, x t = y t := by
  have hsc : Continuous fun t => (fun _ : Fin 1 => s t) := continuous_pi fun _ => hs
  have hone : ∀ n : ℕ, ∃ y, y 0 = u ∧
      Spec.Solves gacComp (fun t u => gacRhs D (fun _ => s t) (fun _ => fo) (fun _ => fa) u) 0 (n : ℝ) y := fun n =>
    c215_smooth h.ok h.beads (cinfl := fun t _ => s t) (foul := fun _ _ => fo) (fac := fun _ _ => fa) (α' := fun _ => 0) (L := 0)
      (Nat.cast_nonneg n) hsc.continuousOn continuousOn_const continuousOn_const (fun _ _ => h.fouling.le) (fun _ _ => h.tortuosity)
      (fun t _ => hasDerivWithinAt_const _ _ _) (fun t _ => by rw [zero_mul]) u
  have huniq : ∀ (T : ℝ) (x x' : ℝ → GacState 1 r z),
      Spec.Solves gacComp (fun t u => gacRhs D (fun _ => s t) (fun _ => fo) (fun _ => fa) u) 0 T x →
      Spec.Solves gacComp (fun t u => gacRhs D (fun _ => s t) (fun _ => fo) (fun _ => fa) u) 0 T x' → x 0 = x' 0 → ∀ t ∈ Icc 0 T, x t = x' t :=
    fun T x x' hx hx' h0 => c211_unique D h.ok.ym h.ok.xn (cinfl := fun t _ => s t) (foul := fun _ _ => fo) (fac := fun _ _ => fa)
      hsc.continuousOn continuousOn_const continuousOn_const hx hx' h0
  choose Y hY0 hY using hone
  have hcut : ∀ {S T : ℝ} {x : ℝ → GacState 1 r z}, T ≤ S →
      Spec.Solves gacComp (fun t u => gacRhs D (fun _ => s t) (fun _ => fo) (fun _ => fa) u) 0 S x →
      Spec.Solves gacComp (fun t u => gacRhs D (fun _ => s t) (fun _ => fo) (fun _ => fa) u) 0 T x := fun hTS hx t ht a =>
    (hx t ⟨ht.1, ht.2.trans hTS⟩ a).mono (Icc_subset_Icc_right hTS)
  have hag : ∀ (n : ℕ) (t : ℝ), 0 ≤ t → t ≤ n → Y ⌈t⌉₊ t = Y n t := by
    intro n t h0 hn
    have hle : ((⌈t⌉₊ : ℕ) : ℝ) ≤ n := by exact_mod_cast Nat.ceil_le.2 hn
    exact huniq _ _ _ (hY _) (hcut hle (hY n)) (by rw [hY0, hY0]) t ⟨h0, Nat.le_ceil t⟩
  have hsol : ∀ T, Spec.Solves gacComp (fun t u => gacRhs D (fun _ => s t) (fun _ => fo) (fun _ => fa) u) 0 T (fun t => Y ⌈t⌉₊ t) := by
    intro T t ht a
    have hn : ∀ s ∈ Icc 0 T, Y ⌈s⌉₊ s = Y ⌈T⌉₊ s := fun s hs => hag _ _ hs.1 (hs.2.trans (Nat.le_ceil T))
    have h1 := hcut (Nat.le_ceil T) (hY ⌈T⌉₊) t ht a
    beta_reduce
    rw [hn t ht]
    exact h1.congr (fun s hs => by rw [hn s hs]) (by rw [hn t ht])
  refine ⟨fun t => Y ⌈t⌉₊ t, ?_, hsol, fun T x hx hx0 t ht => ?_⟩
  · exact hY0 _
  · refine huniq T x _ hx (hsol T) ?_ t ht
    rw [hx0, hY0]

/-- Columns as in C272 exist for any numbers of nodes, with an exponent of one half, and influents that waver about three with a period for
ever, or settle to it without having been at it. -/
example (r z : ℕ) (A : Fin (z + 1) → Fin (z + 1) → ℝ) (hA : Spec.AxialGrid z A) : ∃ (D : GacDim 1 r z) (jac : Fin r → ℝ),
    Spec.SpentSetting D jac 3 2 1 ∧ D.xn 0 = 1 / 2 ∧ D.az = A ∧
    (∃ (δ K : ℝ), 0 < δ ∧ 0 < K ∧ ∀ β, 0 < β → β ≤ δ → ∃ y : ℝ → GacState 1 r z,
      (∀ T, Spec.Solves gacComp (fun t u => gacRhs D (fun _ => 3 + β * Real.sin t) (fun _ => 2) (fun _ => 1) u) 0 T y) ∧
      ∀ t, 0 ≤ t → |y t 0 (Fin.last (r + 1)) (Fin.last z) - 3| ≤ K * β) ∧
    ∃ (δ : ℝ) (y : ℝ → GacState 1 r z), 0 < δ ∧
      (∀ T, Spec.Solves gacComp (fun t u => gacRhs D (fun _ => 3 + δ * Real.exp (-|t|)) (fun _ => 2) (fun _ => 1) u) 0 T y) ∧
      Tendsto (fun t => y t 0 (Fin.last (r + 1)) (Fin.last z)) atTop (nhds 3) := by
  obtain ⟨jac, B, W, g⟩ := beadGrid_exists r
  have hlast : Fin.last z ≠ 0 := fun e => by have := congrArg Fin.val e; have := axial_pos hA; simp at *; omega
  let D : GacDim 1 r z := gacDim ⟨0.64, 0.8, 0.4, 300, 0.05, 5, 1, 0.01, 1, 10, true⟩
    (fun _ : Fin 1 => ⟨100, 1 / 2, 131, 90, 3, 0.003, 1e-6, 1e-9⟩) W B A
  have hp : Spec.OnePhysical ⟨0.64, 0.8, 0.4, 300, 0.05, 5, 1, 0.01, 1, 10, true⟩ ⟨100, 1 / 2, 131, 90, 3, 0.003, 1e-6, 1e-9⟩ := by
    refine ⟨?_, ?_, ?_, ?_, ?_, ?_, ?_, ?_, ?_, ?_, ?_⟩ <;>
      norm_num [GacComp.Ok, tortu0, kfUsed, dpUsed, dsUsed]
  have hD : Spec.SpentSetting D jac 3 2 1 := onePhysical_spent hp g hA (by norm_num) (by norm_num) (by norm_num)
  have hu : ∀ ε : ℝ, 0 ≤ ε → Spec.GacWithin 3 (Spec.spentLoad (D.xn 0) 2 3) ε
      (fun _ a _ => if a = Fin.last (r + 1) then 3 else Spec.spentLoad (D.xn 0) 2 3 : GacState 1 r z) := fun ε hε => by
    refine ⟨fun k w => ?_, fun w _ => ?_⟩
    · beta_reduce
      rw [if_neg (Fin.castSucc_lt_last k).ne, sub_self, abs_zero]; exact hε
    · beta_reduce
      rw [if_pos rfl, sub_self, abs_zero]; exact hε
  refine ⟨D, jac, hD, rfl, rfl, ?_, ?_⟩
  · obtain ⟨δ, C, ω, hδ, hC, hω, hx⟩ := c272_gain hD
    refine ⟨δ, C, hδ, hC, fun β hβ hβδ => ?_⟩
    obtain ⟨y, hy0, hy, -⟩ := c272_run hD (s := fun t => 3 + β * Real.sin t) (by fun_prop)
      (fun _ a _ => if a = Fin.last (r + 1) then 3 else Spec.spentLoad (D.xn 0) 2 3)
    refine ⟨y, hy, fun t ht => ?_⟩
    have := (hx 0 β t _ y (hy t) (fun s _ => by
      rw [add_sub_cancel_left, abs_mul, abs_of_pos hβ]
      exact mul_le_of_le_one_right hβ.le (Real.abs_sin_le_one s)) (by rw [hy0]; exact hu 0 le_rfl) hδ.le hβδ t ⟨ht, le_rfl⟩).2 _ hlast
    rwa [mul_zero, zero_add] at this
  · obtain ⟨δ, hδ, hx⟩ := c272_tends hD
    obtain ⟨y, hy0, hy, -⟩ := c272_run hD (s := fun t => 3 + δ * Real.exp (-|t|)) (by fun_prop)
      (fun _ a _ => if a = Fin.last (r + 1) then 3 else Spec.spentLoad (D.xn 0) 2 3)
    refine ⟨δ, y, hδ, hy, (hx _ y hy (fun t _ => ?_) (by rw [hy0]; exact hu δ hδ.le) ?_).1 _ hlast⟩
    · rw [add_sub_cancel_left, abs_mul, abs_of_pos hδ, abs_of_pos (Real.exp_pos _)]
      exact mul_le_of_le_one_right hδ.le (Real.exp_le_one_iff.2 (by have := abs_nonneg t; linarith))
    · have h1 : Tendsto (fun t : ℝ => Real.exp (-|t|)) atTop (𝓝 0) := Real.tendsto_exp_neg_atTop_nhds_zero.comp tendsto_abs_atTop_atTop
      simpa using (h1.const_mul δ).const_add 3

end
end WTM
