import Verif.Lemmas.LocalColumn
import Verif.Props.ColumnLimit
import Verif.Props.GacRun

/-! Property C260: near exhaustion a carbon column with one compound, any Freundlich exponent up to one and a constant influent tends to it
exponentially. -/
set_option autoImplicit false
namespace WTM
open BigOperators Set Topology Filter

section
variable {r z : ℕ}

/-- Specification: no loading of a state is more than `ε` from `q`, and no concentration below the inlet more than `ε` from `c`. -/
def Spec.GacWithin (c q ε : ℝ) (u : GacState 1 r z) : Prop :=
  (∀ (k : Fin (r + 1)) w, |u 0 k.castSucc w - q| ≤ ε) ∧ ∀ w, w ≠ 0 → |u 0 (Fin.last (r + 1)) w - c| ≤ ε

/-- Specification: the loading in equilibrium with `c`, for the isotherm `c = fo * q ^ (1 / xn)`. -/
noncomputable def Spec.spentLoad (xn fo c : ℝ) : ℝ := (c / fo) ^ xn

/-- Specification: a carbon column with one compound on the grids of the code, under a constant influent `c`, a constant fouling factor
`fo` and a constant tortuosity factor `fa`. -/
structure Spec.SpentSetting (D : GacDim 1 r z) (jac : Fin r → ℝ) (c fo fa : ℝ) : Prop where
  ok : Spec.OneOk D
  beads : Spec.BeadGrid jac D.br D.wr
  axial : Spec.AxialGrid z D.az
  flow : 0 < D.dg1
  influent : 0 < c
  fouling : 0 < fo
  tortuosity : 0 ≤ fa

variable {D : GacDim 1 r z} {jac : Fin r → ℝ} {c fo fa : ℝ}

theorem spent_pos (hc : 0 < c) (hf : 0 < fo) (xn : ℝ) : 0 < Spec.spentLoad xn fo c := Real.rpow_pos_of_pos (div_pos hc hf) _

theorem spent_eq (hc : 0 < c) (hf : 0 < fo) {xn : ℝ} (hx : 0 < xn) : fo * freund xn (Spec.spentLoad xn fo c) = c := by
  have hp := spent_pos hc hf xn
  unfold freund
  rw [max_eq_left hp.le]
  unfold Spec.spentLoad
  rw [← Real.rpow_mul (div_pos hc hf).le, mul_one_div, div_self hx.ne', Real.rpow_one]
  field_simp

theorem freund_deriv {xn q : ℝ} (hq : 0 < q) : HasDerivAt (freund xn) (1 / xn * q ^ (1 / xn - 1)) q := by
  refine (Real.hasDerivAt_rpow_const (p := 1 / xn) (Or.inl hq.ne')).congr_of_eventuallyEq ?_
  filter_upwards [lt_mem_nhds hq] with s hs
  unfold freund
  rw [max_eq_left (le_of_lt hs)]

/-- Excesses over the exhausted column. -/
noncomputable def gacExc (c q : ℝ) (u : GacState 1 r z) : BedExc r z :=
  (fun k => u 0 k.castSucc 0 - q, fun w => (fun k => u 0 k.castSucc w.succ - q, u 0 (Fin.last (r + 1)) w.succ - c))

theorem gacExc_norm {ε : ℝ} (hε : 0 ≤ ε) {q : ℝ} {u : GacState 1 r z} : ‖gacExc c q u‖ ≤ ε ↔ Spec.GacWithin c q ε u := by
  unfold Spec.GacWithin
  rw [norm_prod_le_iff, pi_norm_le_iff_of_nonneg hε, pi_norm_le_iff_of_nonneg hε]
  simp only [norm_prod_le_iff, pi_norm_le_iff_of_nonneg hε, gacExc, Real.norm_eq_abs]
  constructor
  · rintro ⟨h1, h2⟩
    refine ⟨fun k w => ?_, fun w hw => ?_⟩
    · exact Fin.cases (h1 k) (fun w => (h2 w).1 k) w
    · obtain ⟨w', rfl⟩ := Fin.exists_succ_eq.2 hw
      exact (h2 w').2
  · rintro ⟨h1, h2⟩
    exact ⟨fun k => h1 k 0, fun w => ⟨fun k => h1 k w.succ, h2 _ (Fin.succ_ne_zero w)⟩⟩

/-- The isotherm counted from a loading. -/
noncomputable def gacIso (xn fo q x : ℝ) : ℝ := fo * freund xn (q + x) - fo * freund xn q

/-- The rates are those of a column with this isotherm. -/
theorem gac_rates (h : Spec.SpentSetting D jac c fo fa) (u : GacState 1 r z) :
    (((fun k => gacRhs D (fun _ => c) (fun _ => fo) (fun _ => fa) u 0 k.castSucc 0),
      fun w => ((fun k => gacRhs D (fun _ => c) (fun _ => fo) (fun _ => fa) u 0 k.castSucc w.succ),
        gacRhs D (fun _ => c) (fun _ => fo) (fun _ => fa) u 0 (Fin.last (r + 1)) w.succ)) : BedExc r z) =
    bedRhs (gacIso (D.xn 0) fo (Spec.spentLoad (D.xn 0) fo c)) (D.bedp 0 * fa) (D.beds 0) (D.stdv 0 * D.dgI 0) (3 / D.dgI 0) D.dg1
      D.az D.br D.wr (gacExc c (Spec.spentLoad (D.xn 0) fo c) u) := by
  have hx := (h.ok.xn 0).1
  have hdg := h.ok.dgI.ne'
  set q := Spec.spentLoad (D.xn 0) fo c with hq
  have heq : fo * freund (D.xn 0) q = c := spent_eq h.influent h.fouling hx
  have hpore : ∀ k w, cporeAt D (fun _ => fo) u 0 k w = fo * freund (D.xn 0) (u 0 k.castSucc w) := fun k w =>
    cporeAt_one h.ok.ym (fun j => (h.ok.xn j).1) h.fouling.le u k w
  have hiso : ∀ s, gacIso (D.xn 0) fo q (s - q) = fo * freund (D.xn 0) s - c := by
    intro s
    unfold gacIso
    rw [heq, add_sub_cancel]
  have hbb : ∀ k w, gacBB D (fun _ => fo) (fun _ => fa) u 0 k w =
      ∑ l, D.br k l * tankPsi (gacIso (D.xn 0) fo q) (D.bedp 0 * fa) (D.beds 0) (u 0 l.castSucc w - q) := by
    intro k w
    have e : ∀ l, D.br k l * tankPsi (gacIso (D.xn 0) fo q) (D.bedp 0 * fa) (D.beds 0) (u 0 l.castSucc w - q) =
        D.br k l * D.bedp 0 * (fo * freund (D.xn 0) (u 0 l.castSucc w)) * fa + D.br k l * D.beds 0 * u 0 l.castSucc w -
          D.br k l * (D.bedp 0 * fa * c + D.beds 0 * q) := by
      intro l
      unfold tankPsi
      rw [hiso]
      ring
    simp only [e, Finset.sum_sub_distrib, Finset.sum_add_distrib, ← Finset.sum_mul]
    rw [h.beads.rows, zero_mul, sub_zero]
    unfold gacBB
    simp only [hpore]
  have hww : ∀ w, gacWW D (fun _ => fo) (fun _ => fa) u 0 w = ∑ j : Fin r, D.wr j.castSucc *
      ∑ l, D.br j.castSucc l * tankPsi (gacIso (D.xn 0) fo q) (D.bedp 0 * fa) (D.beds 0) (u 0 l.castSucc w - q) := by
    intro w
    unfold gacWW
    simp only [hbb]
  refine Prod.ext (funext fun k => ?_) (funext fun w => Prod.ext (funext fun k => ?_) ?_)
  · simp only [bedRhs, gacExc, tankRhs, gacRhs_bead, gacBead, hpore, hww, hiso]
    by_cases hk : k = Fin.last r
    · simp only [hk, if_true]
      congr 1
      ring
    · simp only [if_neg hk, hbb]
  · simp only [bedRhs, gacExc, tankRhs, gacRhs_bead, gacBead, gacCbs, hpore, hww, hiso, Fin.succ_ne_zero, if_false, Prod.fst_sub, sub_zero,
      Pi.zero_apply, Pi.sub_apply]
    by_cases hk : k = Fin.last r
    · simp only [hk, if_true]
      congr 1
      ring
    · simp only [if_neg hk, hbb]
  · have h0 := (axial_moves h.axial (fun _ => 1)).2 (fun _ => rfl) w.succ (Fin.succ_ne_zero w)
    simp only [mul_one] at h0
    rw [Fin.sum_univ_succ] at h0
    have hadv : ∑ w' : Fin z, D.az w.succ w'.succ * (u 0 (Fin.last (r + 1)) w'.succ - c) =
        D.az w.succ 0 * c + ∑ w' : Fin z, D.az w.succ w'.succ * u 0 (Fin.last (r + 1)) w'.succ := by
      simp only [mul_sub, Finset.sum_sub_distrib, ← Finset.sum_mul]
      linear_combination -c * h0
    simp only [bedRhs, gacExc, tankRhs, gacRhs_liq, gacLiq, gacCbs, hpore, hiso, Fin.succ_ne_zero, if_false, Prod.snd_sub, hadv]
    field_simp
    ring

/-- Slope of the isotherm at exhaustion. -/
theorem gacIso_deriv (h : Spec.SpentSetting D jac c fo fa) : ∃ a, 0 < a ∧
    HasDerivAt (gacIso (D.xn 0) fo (Spec.spentLoad (D.xn 0) fo c)) a 0 := by
  set q := Spec.spentLoad (D.xn 0) fo c with hq
  have hp : 0 < q := spent_pos h.influent h.fouling _
  have hx := (h.ok.xn 0).1
  have hfo := h.fouling
  refine ⟨fo * (1 / D.xn 0 * q ^ (1 / D.xn 0 - 1)), by positivity, ?_⟩
  have h1 : HasDerivAt (fun x => q + x) 1 (0 : ℝ) := (hasDerivAt_id (0 : ℝ)).const_add q
  have h2 : HasDerivAt (freund (D.xn 0)) (1 / D.xn 0 * q ^ (1 / D.xn 0 - 1)) (q + 0) := by
    rw [add_zero]; exact freund_deriv hp
  have h3 := ((HasDerivAt.comp (h := fun x : ℝ => q + x) 0 h2 h1).const_mul fo).sub_const (fo * freund (D.xn 0) q)
  rw [mul_one] at h3
  exact h3

/-- C260. There are constants of the column and its inputs such that every run that starts within `δ` of the exhausted column approaches it
at least as `C * exp (-(ω * t))`: any exponent, any numbers of radial and axial nodes. -/
theorem c260_near (h : Spec.SpentSetting D jac c fo fa) : ∃ δ C ω : ℝ, 0 < δ ∧ 0 < C ∧ 0 < ω ∧ ∀ (ε T : ℝ) (y : ℝ → GacState 1 r z),
    Spec.Solves gacComp (fun _ u => gacRhs D (fun _ => c) (fun _ => fo) (fun _ => fa) u) 0 T y →
    Spec.GacWithin c (Spec.spentLoad (D.xn 0) fo c) ε (y 0) → ε ≤ δ →
    ∀ t ∈ Icc 0 T, Spec.GacWithin c (Spec.spentLoad (D.xn 0) fo c) (C * Real.exp (-(ω * t)) * ε) (y t) := by
  obtain ⟨a, ha, hd⟩ := gacIso_deriv h
  obtain ⟨G, hG⟩ := axial_form h.axial
  have hb := h.ok.beds
  have hbp := h.ok.bedp
  have hfa := h.tortuosity
  obtain ⟨δ, C, ω, hδ, hC, hω, hx⟩ := bed_local (α := D.bedp 0 * fa) (b := D.beds 0) (f := D.stdv 0 * D.dgI 0) (μ := 3 / D.dgI 0) (κ := D.dg1)
    h.beads (axial_moves h.axial) hG hd (by unfold gacIso; rw [add_zero, sub_self]) ha (by positivity) (mul_pos h.ok.stdv h.ok.dgI)
    (div_pos (by norm_num) h.ok.dgI) h.flow
  refine ⟨δ, C, ω, hδ, hC, hω, fun ε T y hy h0 hε t ht => ?_⟩
  have hε0 : 0 ≤ ε := (abs_nonneg _).trans (h0.1 0 0)
  have hn := (gacExc_norm hε0).2 h0
  have := hx (fun s => gacExc c (Spec.spentLoad (D.xn 0) fo c) (y s)) T (fun s hs => by
    rw [← gac_rates h]
    refine HasDerivWithinAt.prodMk (hasDerivWithinAt_pi.2 fun k => ?_) (hasDerivWithinAt_pi.2 fun w =>
      HasDerivWithinAt.prodMk (hasDerivWithinAt_pi.2 fun k => ?_) ?_)
    · exact (hy s hs (0, k.castSucc, 0)).sub_const _
    · exact (hy s hs (0, k.castSucc, w.succ)).sub_const _
    · exact (hy s hs (0, Fin.last (r + 1), w.succ)).sub_const _) (hn.trans hε) t ht
  exact (gacExc_norm (by positivity)).1 (this.trans (mul_le_mul_of_nonneg_left hn (by positivity)))

theorem gac_shift {F : GacState 1 r z → GacState 1 r z} {y : ℝ → GacState 1 r z} {s T : ℝ} (hs : 0 ≤ s)
    (hy : Spec.Solves gacComp (fun _ u => F u) 0 (s + T) y) : Spec.Solves gacComp (fun _ u => F u) 0 T (fun t => y (s + t)) := by
  intro t ht a
  have h1 := hy (s + t) ⟨by linarith [ht.1], by linarith [ht.2]⟩ a
  have h2 : HasDerivWithinAt (fun τ : ℝ => s + τ) 1 (Icc 0 T) t := ((hasDerivAt_id t).const_add s).hasDerivWithinAt
  have h3 := HasDerivWithinAt.comp (h := fun τ : ℝ => s + τ) t h1 h2 (fun τ hτ => ⟨by linarith [hτ.1], by linarith [hτ.2]⟩)
  rw [mul_one] at h3
  exact h3

/-- C260. Whatever its start, a run for all time either keeps away from the exhausted column for ever, by `δ` in some loading or
concentration, or tends to it: all waters below the inlet to the influent, all loadings to their equilibrium with it. -/
theorem c260_either (h : Spec.SpentSetting D jac c fo fa) : ∃ δ : ℝ, 0 < δ ∧ ∀ y : ℝ → GacState 1 r z,
    (∀ T, Spec.Solves gacComp (fun _ u => gacRhs D (fun _ => c) (fun _ => fo) (fun _ => fa) u) 0 T y) →
    (∀ t, 0 ≤ t → ¬ Spec.GacWithin c (Spec.spentLoad (D.xn 0) fo c) δ (y t)) ∨
    ((∀ w, w ≠ 0 → Tendsto (fun t => y t 0 (Fin.last (r + 1)) w) atTop (nhds c)) ∧
      ∀ (k : Fin (r + 1)) w, Tendsto (fun t => y t 0 k.castSucc w) atTop (nhds (Spec.spentLoad (D.xn 0) fo c))) := by
  obtain ⟨δ, C, ω, hδ, hC, hω, hx⟩ := c260_near h
  refine ⟨δ, hδ, fun y hy => ?_⟩
  by_cases hs : ∃ s, 0 ≤ s ∧ Spec.GacWithin c (Spec.spentLoad (D.xn 0) fo c) δ (y s)
  · obtain ⟨s, hs0, hs⟩ := hs
    right
    have hW : ∀ t, s ≤ t → Spec.GacWithin c (Spec.spentLoad (D.xn 0) fo c) (C * Real.exp (-(ω * (t - s))) * δ) (y t) := by
      intro t ht
      have := hx δ (t - s) (fun τ => y (s + τ)) (gac_shift hs0 (hy _)) (by rw [add_zero]; exact hs) le_rfl (t - s) ⟨by linarith, le_rfl⟩
      rwa [add_sub_cancel] at this
    have hlim : Tendsto (fun t => C * Real.exp (-(ω * (t - s))) * δ) atTop (nhds 0) := by
      have h1 : Tendsto (fun t : ℝ => ω * (t - s)) atTop atTop := (tendsto_atTop_add_const_right _ (-s) tendsto_id).const_mul_atTop hω
      have h3 := ((Real.tendsto_exp_neg_atTop_nhds_zero.comp h1).const_mul C).mul_const δ
      simpa using h3
    have key : ∀ (f : ℝ → ℝ) (b : ℝ), (∀ t, s ≤ t → |f t - b| ≤ C * Real.exp (-(ω * (t - s))) * δ) → Tendsto f atTop (nhds b) := by
      intro f b hf
      rw [tendsto_iff_dist_tendsto_zero]
      refine squeeze_zero' (Eventually.of_forall fun t => dist_nonneg) ?_ hlim
      filter_upwards [eventually_ge_atTop s] with t h0
      rw [Real.dist_eq]
      exact hf t h0
    exact ⟨fun w hw => key _ _ fun t ht => (hW t ht).2 w hw, fun k w => key _ _ fun t ht => (hW t ht).1 k w⟩
  · left
    push Not at hs
    exact hs

/-- C260. From every state there is a run for all time, and exactly one. -/
theorem c260_run (h : Spec.SpentSetting D jac c fo fa) (u : GacState 1 r z) : ∃ y : ℝ → GacState 1 r z, y 0 = u ∧
    (∀ T, Spec.Solves gacComp (fun _ u => gacRhs D (fun _ => c) (fun _ => fo) (fun _ => fa) u) 0 T y) ∧
    ∀ T x, Spec.Solves gacComp (fun _ u => gacRhs D (fun _ => c) (fun _ => fo) (fun _ => fa) u) 0 T x → x 0 = u → ∀ t ∈ Icc 0 T, x t = y t := by
  have hone : ∀ n : ℕ, ∃ y, y 0 = u ∧
      Spec.Solves gacComp (fun _ u => gacRhs D (fun _ => c) (fun _ => fo) (fun _ => fa) u) 0 (n : ℝ) y := fun n =>
    c215_smooth h.ok h.beads (cinfl := fun _ _ => c) (foul := fun _ _ => fo) (fac := fun _ _ => fa) (α' := fun _ => 0) (L := 0)
      (Nat.cast_nonneg n) continuousOn_const continuousOn_const continuousOn_const (fun _ _ => h.fouling.le) (fun _ _ => h.tortuosity)
      (fun t _ => hasDerivWithinAt_const _ _ _) (fun t _ => by rw [zero_mul]) u
  have huniq : ∀ (T : ℝ) (x x' : ℝ → GacState 1 r z),
      Spec.Solves gacComp (fun _ u => gacRhs D (fun _ => c) (fun _ => fo) (fun _ => fa) u) 0 T x →
      Spec.Solves gacComp (fun _ u => gacRhs D (fun _ => c) (fun _ => fo) (fun _ => fa) u) 0 T x' → x 0 = x' 0 → ∀ t ∈ Icc 0 T, x t = x' t :=
    fun T x x' hx hx' h0 => c211_unique D h.ok.ym h.ok.xn (cinfl := fun _ _ => c) (foul := fun _ _ => fo) (fac := fun _ _ => fa)
      continuousOn_const continuousOn_const continuousOn_const hx hx' h0
  choose Y hY0 hY using hone
  have hcut : ∀ {S T : ℝ} {x : ℝ → GacState 1 r z}, T ≤ S →
      Spec.Solves gacComp (fun _ u => gacRhs D (fun _ => c) (fun _ => fo) (fun _ => fa) u) 0 S x →
      Spec.Solves gacComp (fun _ u => gacRhs D (fun _ => c) (fun _ => fo) (fun _ => fa) u) 0 T x := fun hTS hx t ht a =>
    (hx t ⟨ht.1, ht.2.trans hTS⟩ a).mono (Icc_subset_Icc_right hTS)
  have hag : ∀ (n : ℕ) (t : ℝ), 0 ≤ t → t ≤ n → Y ⌈t⌉₊ t = Y n t := by
    intro n t h0 hn
    have hle : ((⌈t⌉₊ : ℕ) : ℝ) ≤ n := by exact_mod_cast Nat.ceil_le.2 hn
    exact huniq _ _ _ (hY _) (hcut hle (hY n)) (by rw [hY0, hY0]) t ⟨h0, Nat.le_ceil t⟩
  have hsol : ∀ T, Spec.Solves gacComp (fun _ u => gacRhs D (fun _ => c) (fun _ => fo) (fun _ => fa) u) 0 T (fun t => Y ⌈t⌉₊ t) := by
    intro T t ht a
    have hn : ∀ s ∈ Icc 0 T, Y ⌈s⌉₊ s = Y ⌈T⌉₊ s := fun s hs => hag _ _ hs.1 (hs.2.trans (Nat.le_ceil T))
    have h1 := hcut (Nat.le_ceil T) (hY ⌈T⌉₊) t ht a
    beta_reduce
    rw [hn t ht]
    exact h1.congr (fun s hs => by rw [hn s hs]) (by rw [hn t ht])
  refine ⟨fun t => Y ⌈t⌉₊ t, ?_, hsol, fun T x hx hx0 t ht => ?_⟩
  · exact hY0 _
  · refine huniq T x _ hx (hsol T) ?_ t ht
    rw [hx0, hY0]

/-- C260. The area between influent and effluent of a run that tends to exhaustion is what the column takes up: with `dg` the capacity of the
code, the exhausted content `c + dg * q` less the content at the start. -/
theorem c260_area (h : Spec.SpentSetting D jac c fo fa) (hM : 2 ≤ z) {dg : ℝ} (hdg : dg ≠ 0) (hI : D.dgI 0 = 1 / dg) :
    ∃ g : Fin (z + 1) → ℝ, g 0 = 0 ∧ ∑ w, g w = 1 ∧ ∀ y : ℝ → GacState 1 r z,
    (∀ T, Spec.Solves gacComp (fun _ u => gacRhs D (fun _ => c) (fun _ => fo) (fun _ => fa) u) 0 T y) →
    (∀ w, w ≠ 0 → Tendsto (fun t => y t 0 (Fin.last (r + 1)) w) atTop (nhds c)) →
    (∀ (k : Fin (r + 1)) w, Tendsto (fun t => y t 0 k.castSucc w) atTop (nhds (Spec.spentLoad (D.xn 0) fo c))) →
    Tendsto (fun T => D.dg1 * ∫ t in (0 : ℝ)..T, (c - y t 0 (Fin.last (r + 1)) (Fin.last z))) atTop
      (nhds (c + dg * Spec.spentLoad (D.xn 0) fo c - Spec.gacContent dg D.wr g (y 0) 0)) := by
  obtain ⟨g, hgi, hsum, hgt⟩ := axial_mean h.axial hM
  refine ⟨g, hgi, hsum, fun y hy hlq hbd => ?_⟩
  have hW := (h.beads.wpos (Fin.last r)).ne'
  have hW3 : ∑ k, D.wr k = 1 / 3 := by
    rw [h.beads.weights]
    exact (c17_positive_sum (Nat.succ_pos r) (radialNodes_inj h.beads.zeros.1 (fun i => (h.beads.zeros.2.1 i).2))
      (radialNodes_pos (fun i => (h.beads.zeros.2.1 i).1)) (by norm_num : (0:ℝ) < 3)).2
  have hlim : Tendsto (fun T => Spec.gacContent dg D.wr g (y T) 0) atTop
      (nhds (∑ w, g w * (c + 3 * dg * ∑ k : Fin (r + 1), D.wr k * Spec.spentLoad (D.xn 0) fo c))) := by
    unfold Spec.gacContent
    refine tendsto_finsetSum _ fun w _ => ?_
    by_cases hw : w = 0
    · rw [hw, hgi]
      simp only [zero_mul]
      exact tendsto_const_nhds
    · exact ((hlq w hw).add ((tendsto_finsetSum _ fun k _ => (hbd k w).const_mul (D.wr k)).const_mul (3 * dg))).const_mul (g w)
  have hend : ∑ w, g w * (c + 3 * dg * ∑ k : Fin (r + 1), D.wr k * Spec.spentLoad (D.xn 0) fo c) = c + dg * Spec.spentLoad (D.xn 0) fo c := by
    rw [← Finset.sum_mul, hsum, ← Finset.sum_mul, hW3]
    ring
  rw [hend] at hlim
  refine (hlim.sub_const (Spec.gacContent dg D.wr g (y 0) 0)).congr' ?_
  filter_upwards [eventually_ge_atTop 0] with T hT
  have hco : IntervalIntegrable (fun t => y t 0 (Fin.last (r + 1)) (Fin.last z)) MeasureTheory.volume 0 T := by
    apply ContinuousOn.intervalIntegrable
    rw [Set.uIcc_of_le hT]
    exact solves_continuousOn (hy T) (0, Fin.last (r + 1), Fin.last z)
  rw [c156_solutions D (axial_pos h.axial) hW (fun _ _ => c) (fun _ _ => fo) (fun _ _ => fa) 0 hdg hI hgi hgt hT (hy T) intervalIntegrable_const,
    intervalIntegral.integral_sub intervalIntegrable_const hco]

/-- The columns that `gacDim` builds from physical inputs are such settings. -/
theorem onePhysical_spent {G : GacCol} {cm : GacComp} (h : Spec.OnePhysical G cm) {wr : Fin (r + 1) → ℝ}
    {br : Fin (r + 1) → Fin (r + 1) → ℝ} (g : Spec.BeadGrid jac br wr) {az : Fin (z + 1) → Fin (z + 1) → ℝ} (hz : Spec.AxialGrid z az)
    (hc : 0 < c) (hf : 0 < fo) (ha : 0 ≤ fa) :
    Spec.SpentSetting (gacDim G (fun _ : Fin 1 => cm) wr br az) jac c fo fa := by
  have ho := (onePhysical_ok h wr br az).1
  refine ⟨ho, g, hz, ?_, hc, hf, ha⟩
  have h1 : 0 < 1 / dgOf G cm := ho.dgI
  show 0 < 1 + ∑ _i : Fin 1, dgOf G cm
  rw [Fin.sum_univ_one]
  linarith [one_div_pos.1 h1]

/-- Columns as in C260 exist for any numbers of nodes, with an exponent of one half, and runs that tend to exhaustion without having been
exhausted: the start is `δ` away. -/
example (r z : ℕ) (A : Fin (z + 1) → Fin (z + 1) → ℝ) (hA : Spec.AxialGrid z A) : ∃ (D : GacDim 1 r z) (jac : Fin r → ℝ),
    Spec.SpentSetting D jac 3 2 1 ∧ D.xn 0 = 1 / 2 ∧ D.az = A ∧ ∃ (δ : ℝ) (y : ℝ → GacState 1 r z), 0 < δ ∧
      (∀ T, Spec.Solves gacComp (fun _ u => gacRhs D (fun _ => 3) (fun _ => 2) (fun _ => 1) u) 0 T y) ∧
      y 0 0 (Fin.last (r + 1)) (Fin.last z) = 3 - δ ∧
      Tendsto (fun t => y t 0 (Fin.last (r + 1)) (Fin.last z)) atTop (nhds 3) := by
  obtain ⟨jac, B, W, g⟩ := beadGrid_exists r
  have hlast : Fin.last z ≠ 0 := fun e => by have := congrArg Fin.val e; have := axial_pos hA; simp at *; omega
  let D : GacDim 1 r z := gacDim ⟨0.64, 0.8, 0.4, 300, 0.05, 5, 1, 0.01, 1, 10, true⟩
    (fun _ : Fin 1 => ⟨100, 1 / 2, 131, 90, 3, 0.003, 1e-6, 1e-9⟩) W B A
  have hp : Spec.OnePhysical ⟨0.64, 0.8, 0.4, 300, 0.05, 5, 1, 0.01, 1, 10, true⟩ ⟨100, 1 / 2, 131, 90, 3, 0.003, 1e-6, 1e-9⟩ := by
    refine ⟨?_, ?_, ?_, ?_, ?_, ?_, ?_, ?_, ?_, ?_, ?_⟩ <;>
      norm_num [GacComp.Ok, tortu0, kfUsed, dpUsed, dsUsed]
  have hD : Spec.SpentSetting D jac 3 2 1 := onePhysical_spent hp g hA (by norm_num) (by norm_num) (by norm_num)
  obtain ⟨δ, hδ, hx⟩ := c260_either hD
  obtain ⟨y, hy0, hy, -⟩ := c260_run hD (fun _ a _ => if a = Fin.last (r + 1) then 3 - δ else Spec.spentLoad (D.xn 0) 2 3)
  refine ⟨D, jac, hD, rfl, rfl, δ, y, hδ, hy, by rw [hy0]; simp, ?_⟩
  rcases hx y hy with h | h
  · refine absurd ?_ (h 0 le_rfl)
    rw [hy0]
    refine ⟨fun k w => ?_, fun w _ => ?_⟩
    · beta_reduce
      rw [if_neg (Fin.castSucc_lt_last k).ne, sub_self, abs_zero]; exact hδ.le
    · beta_reduce
      rw [if_pos rfl, show (3 : ℝ) - δ - 3 = -δ by ring, abs_neg, abs_of_pos hδ]
  · exact h.1 _ hlast

end
end WTM
