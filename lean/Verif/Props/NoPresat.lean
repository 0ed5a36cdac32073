import Verif.Props.Equil
import Verif.Props.RIex
import Verif.Model.IexBatch
import Mathlib.Topology.Algebra.Field
import Mathlib.Topology.Order.Basic
import Mathlib.Topology.Algebra.Monoid
import Mathlib.Analysis.SpecialFunctions.Sqrt

/-! Property C286: the equilibrium of a resin that loses its presaturant. -/
set_option autoImplicit false
namespace WTM
open BigOperators Topology Filter Function

section
variable {p : ℕ} {K : Fin (p + 1) → ℝ} {val : Fin (p + 1) → ℕ} {q : Fin (p + 1) → ℝ} {CT : ℝ}

/-- Specification: a resin with a monovalent presaturant and other ions of which a divalent one is loaded, over water that holds ions. -/
structure Spec.Exhausting (K : Fin (p + 1) → ℝ) (val : Fin (p + 1) → ℕ) (q : Fin (p + 1) → ℝ) (CT : ℝ) : Prop where
  Kpos : ∀ i, 0 < K i
  valRef : val 0 = 1
  vals : ∀ i, val i = 1 ∨ val i = 2
  qnonneg : ∀ i, i ≠ 0 → 0 ≤ q i
  divalent : ∃ i, val i = 2 ∧ 0 < q i
  water : 0 < CT

/-- C286, full statement: as the loading of the presaturant goes through zero the equilibrium tends to a water without negative concentrations. -/
def C286 : Prop :=
  ∀ (p : ℕ) (K : Fin (p + 1) → ℝ) (val : Fin (p + 1) → ℕ) (q : Fin (p + 1) → ℝ) (CT : ℝ), Spec.Exhausting K val q CT →
    ∃ c : Fin (p + 1) → ℝ, (∀ i, 0 ≤ c i) ∧ Spec.Neutral c CT ∧ Tendsto (fun x => ceq K val (update q 0 x) CT) (𝓝[≠] 0) (𝓝 c)

/-- Loadings over selectivities of the divalent ions, and of the monovalent ones but the presaturant. -/
noncomputable def dvLoad (K : Fin (p + 1) → ℝ) (val : Fin (p + 1) → ℕ) (q : Fin (p + 1) → ℝ) : ℝ := ∑ i, if val i = 2 then q i / K i else 0
noncomputable def mvLoad (K : Fin (p + 1) → ℝ) (val : Fin (p + 1) → ℕ) (q : Fin (p + 1) → ℝ) : ℝ := ∑ i, if val i = 1 ∧ i ≠ 0 then q i / K i else 0

/-- Concentration over loading of the presaturant: a root of `A s² + (B + x) s = CT`, chosen by the sign `σ`. -/
noncomputable def presatRatio (A B CT σ x : ℝ) : ℝ := (σ * Real.sqrt ((B + x) ^ 2 + 4 * A * CT) - (B + x)) / (2 * A)

/-- The water for such a ratio. -/
noncomputable def waterOf (K : Fin (p + 1) → ℝ) (val : Fin (p + 1) → ℕ) (q : Fin (p + 1) → ℝ) (x s : ℝ) (i : Fin (p + 1)) : ℝ :=
  if i = 0 then x * s else q i / K i * s ^ val i

theorem dvLoad_pos (h : Spec.Exhausting K val q CT) : 0 < dvLoad K val q := by
  obtain ⟨i, hi, hq⟩ := h.divalent
  refine Finset.sum_pos' (fun j _ => ?_) ⟨i, Finset.mem_univ i, by rw [if_pos hi]; exact div_pos hq (h.Kpos i)⟩
  split
  · rename_i hj
    have : j ≠ 0 := by rintro rfl; rw [h.valRef] at hj; cases hj
    exact div_nonneg (h.qnonneg j this) (h.Kpos j).le
  · exact le_rfl

theorem mvLoad_nonneg (h : Spec.Exhausting K val q CT) : 0 ≤ mvLoad K val q := by
  refine Finset.sum_nonneg fun j _ => ?_
  split
  · rename_i hj
    exact div_nonneg (h.qnonneg j hj.2) (h.Kpos j).le
  · exact le_rfl

theorem eqAA_update (h0 : val 0 = 1) (x : ℝ) : eqAA K val (update q 0 x) = dvLoad K val q / x ^ 2 := by
  unfold eqAA dvLoad
  rw [update_self]
  congr 1
  refine Finset.sum_congr rfl fun i _ => ?_
  split
  · rename_i hi
    have : i ≠ 0 := by rintro rfl; rw [h0] at hi; cases hi
    rw [update_of_ne this]
  · rfl

theorem eqBB_update (x : ℝ) : eqBB K val (update q 0 x) = mvLoad K val q / x + 1 := by
  unfold eqBB mvLoad
  rw [update_self]
  congr 2
  refine Finset.sum_congr rfl fun i _ => ?_
  split
  · rename_i hi
    rw [update_of_ne hi.2]
  · rfl

/-- Both roots solve the balance of charges. -/
theorem presatRatio_root {A B σ x : ℝ} (hA : 0 < A) (hCT : 0 < CT) (hσ : σ ^ 2 = 1) :
    A * presatRatio A B CT σ x ^ 2 + (B + x) * presatRatio A B CT σ x = CT := by
  have hn : 0 ≤ (B + x) ^ 2 + 4 * A * CT := by positivity
  have hR := Real.sq_sqrt hn
  unfold presatRatio
  generalize Real.sqrt ((B + x) ^ 2 + 4 * A * CT) = R at hR
  field_simp
  linear_combination σ ^ 2 * hR + ((B + x) ^ 2 + 4 * A * CT) * hσ

theorem waterOf_neutral (h : Spec.Exhausting K val q CT) {x s : ℝ} (hs : dvLoad K val q * s ^ 2 + (mvLoad K val q + x) * s = CT) :
    Spec.Neutral (waterOf K val q x s) CT := by
  unfold Spec.Neutral
  have e : ∀ i, waterOf K val q x s i = (if val i = 2 then q i / K i else 0) * s ^ 2 + (if val i = 1 ∧ i ≠ 0 then q i / K i else 0) * s +
      if i = 0 then x * s else 0 := by
    intro i
    unfold waterOf
    by_cases h0 : i = 0
    · subst h0
      rw [if_pos rfl, if_neg (by rw [h.valRef]; decide), if_neg (fun hc => hc.2 rfl), if_pos rfl]
      ring
    · rw [if_neg h0, if_neg h0]
      rcases h.vals i with hv | hv
      · rw [if_neg (by rw [hv]; decide), if_pos ⟨hv, h0⟩, hv]
        ring
      · rw [if_pos hv, if_neg (fun hc => by rw [hv] at hc; cases hc.1), hv]
        ring
  rw [Finset.sum_congr rfl fun i _ => e i, Finset.sum_add_distrib, Finset.sum_add_distrib, ← Finset.sum_mul, ← Finset.sum_mul,
    Finset.sum_ite_eq' Finset.univ (0 : Fin (p + 1)), if_pos (Finset.mem_univ _)]
  unfold dvLoad mvLoad at hs
  linarith

theorem discr_update {A B x : ℝ} (hx : x ≠ 0) : (B / x + 1) ^ 2 - 4 * (A / x ^ 2) * -CT = ((B + x) ^ 2 + 4 * A * CT) / x ^ 2 := by
  field_simp
  ring

/-- The equilibrium for a presaturant loaded above (`σ = 1`) or below (`σ = -1`) zero. -/
theorem ceq_signed (h : Spec.Exhausting K val q CT) {x σ : ℝ} (hx : x ≠ 0) (hσ : σ ^ 2 = 1) (hsx : 0 < σ * x) :
    ceq K val (update q 0 x) CT = waterOf K val q x (presatRatio (dvLoad K val q) (mvLoad K val q) CT σ x) ∧
    ceqBatch K val (update q 0 x) CT = some (waterOf K val q x (presatRatio (dvLoad K val q) (mvLoad K val q) CT σ x)) := by
  have hdv : ∃ i, val i = 2 := ⟨_, h.divalent.choose_spec.1⟩
  have hA := dvLoad_pos h
  set A := dvLoad K val q with hAd
  set B := mvLoad K val q with hBd
  set R := Real.sqrt ((B + x) ^ 2 + 4 * A * CT) with hRd
  have hpos : 0 < 4 * A * CT := by have := h.water; positivity
  have hn : 0 ≤ (B + x) ^ 2 + 4 * A * CT := by positivity
  have hR : R ^ 2 = (B + x) ^ 2 + 4 * A * CT := Real.sq_sqrt hn
  have hR0 : 0 ≤ R := Real.sqrt_nonneg _
  have hlt : |B + x| < R := by
    refine abs_lt_of_sq_lt_sq ?_ hR0
    rw [hR]; linarith
  have habs : |x| = σ * x := by
    have h1 : |σ| = 1 := by
      have := sq_abs σ
      rw [hσ] at this
      nlinarith [abs_nonneg σ]
    rw [← abs_of_pos hsx, abs_mul, h1, one_mul]
  have hσ0 : σ ≠ 0 := by rintro rfl; norm_num at hσ
  have hsq : Real.sqrt (((B + x) ^ 2 + 4 * A * CT) / x ^ 2) = σ * R / x := by
    rw [Real.sqrt_div hn, Real.sqrt_sq_eq_abs, habs, ← hRd, div_eq_div_iff (mul_ne_zero hσ0 hx) hx]
    linear_combination (-R * x) * hσ
  have key : ∀ c, c = x * presatRatio A B CT σ x → ceqOfRef K val (update q 0 x) c = waterOf K val q x (presatRatio A B CT σ x) := by
    rintro c rfl
    funext i
    unfold ceqOfRef waterOf
    by_cases h0 : i = 0
    · rw [if_pos h0, if_pos h0]
    · rw [if_neg h0, if_neg h0, update_of_ne h0, update_self, mul_div_cancel_left₀ _ hx]
  constructor
  · unfold ceq
    rw [if_pos hdv]
    refine key _ ?_
    unfold refConc
    dsimp only
    rw [eqAA_update h.valRef, eqBB_update, ← hAd, ← hBd, discr_update hx, hsq]
    unfold presatRatio
    rw [← hRd]
    have hden : B + x + σ * R ≠ 0 := by
      intro h0
      have : (B + x) ^ 2 = R ^ 2 := by
        have e : B + x = -(σ * R) := by linarith
        rw [e, neg_sq, mul_pow, hσ, one_mul]
      rw [hR] at this
      linarith
    have e1 : -(B / x + 1) - σ * R / x = -(B + x + σ * R) / x := by field_simp; ring
    rw [e1, neg_div, mul_neg, neg_div_neg_eq, div_div_eq_mul_div, mul_div_assoc', div_eq_div_iff hden (by positivity)]
    linear_combination (-x * σ ^ 2) * hR - (x * ((B + x) ^ 2 + 4 * A * CT)) * hσ
  · unfold ceqBatch
    rw [if_pos hdv]
    have ha0 : A / x ^ 2 ≠ 0 := by positivity
    unfold refConcBatch
    dsimp only
    rw [eqAA_update h.valRef, eqBB_update, ← hAd, ← hBd, if_neg ha0, Option.map_some, discr_update hx, hsq]
    congr 1
    refine key _ ?_
    unfold presatRatio
    rw [← hRd]
    field_simp
    ring

theorem waterOf_tendsto {A B σ : ℝ} (l : Filter ℝ) (hl : l ≤ 𝓝 0) :
    Tendsto (fun x => waterOf K val q x (presatRatio A B CT σ x)) l (𝓝 (waterOf K val q 0 (presatRatio A B CT σ 0))) := by
  refine Tendsto.mono_left ?_ hl
  refine tendsto_pi_nhds.2 fun i => ?_
  have hc : Continuous fun x => waterOf K val q x (presatRatio A B CT σ x) i := by
    unfold waterOf presatRatio
    split <;> fun_prop
  exact hc.tendsto 0

theorem presatRatio_signs (h : Spec.Exhausting K val q CT) :
    0 < presatRatio (dvLoad K val q) (mvLoad K val q) CT 1 0 ∧ presatRatio (dvLoad K val q) (mvLoad K val q) CT (-1) 0 < 0 := by
  have hA := dvLoad_pos h
  have hB := mvLoad_nonneg h
  have hp : 0 < 4 * dvLoad K val q * CT := by have := h.water; positivity
  have hlt : mvLoad K val q + 0 < Real.sqrt ((mvLoad K val q + 0) ^ 2 + 4 * dvLoad K val q * CT) := by
    refine Real.lt_sqrt_of_sq_lt ?_
    linarith
  unfold presatRatio
  constructor
  · exact div_pos (by linarith) (by positivity)
  · exact div_neg_of_neg_of_pos (by linarith) (by positivity)

/-- The limit of the equilibria from one side. -/
theorem ceq_oneside (h : Spec.Exhausting K val q CT) {σ : ℝ} (hσ : σ ^ 2 = 1) (l : Filter ℝ) (hl : l ≤ 𝓝 0) (hev : ∀ᶠ x in l, 0 < σ * x) :
    Tendsto (fun x => ceq K val (update q 0 x) CT) l (𝓝 (waterOf K val q 0 (presatRatio (dvLoad K val q) (mvLoad K val q) CT σ 0))) := by
  refine (waterOf_tendsto l hl).congr' ?_
  filter_upwards [hev] with x hx
  have hx0 : x ≠ 0 := by rintro rfl; rw [mul_zero] at hx; exact lt_irrefl _ hx
  exact (ceq_signed h hx0 hσ hx).1.symm

theorem ceq_above (h : Spec.Exhausting K val q CT) :
    Tendsto (fun x => ceq K val (update q 0 x) CT) (𝓝[>] 0) (𝓝 (waterOf K val q 0 (presatRatio (dvLoad K val q) (mvLoad K val q) CT 1 0))) := by
  refine ceq_oneside h (one_pow 2) _ nhdsWithin_le_nhds ?_
  filter_upwards [self_mem_nhdsWithin] with x hx
  rw [one_mul]; exact hx

theorem ceq_below (h : Spec.Exhausting K val q CT) :
    Tendsto (fun x => ceq K val (update q 0 x) CT) (𝓝[<] 0) (𝓝 (waterOf K val q 0 (presatRatio (dvLoad K val q) (mvLoad K val q) CT (-1) 0))) := by
  refine ceq_oneside h (by norm_num) _ nhdsWithin_le_nhds ?_
  filter_upwards [self_mem_nhdsWithin] with x hx
  have hx' : x < 0 := hx
  linarith

/-- C286, what holds in general: from above, the equilibrium tends to the neutral water without the presaturant. Missing: from below (`c286_below`). -/
theorem c286_partial (h : Spec.Exhausting K val q CT) : ∃ (c : Fin (p + 1) → ℝ) (s : ℝ), 0 < s ∧ c 0 = 0 ∧ (∀ i, i ≠ 0 → c i = q i / K i * s ^ val i) ∧
    (∀ i, 0 ≤ c i) ∧ Spec.Neutral c CT ∧ Tendsto (fun x => ceq K val (update q 0 x) CT) (𝓝[>] 0) (𝓝 c) := by
  have hs := (presatRatio_signs h).1
  refine ⟨_, presatRatio (dvLoad K val q) (mvLoad K val q) CT 1 0, hs, ?_, fun i hi => ?_, fun i => ?_,
    waterOf_neutral h (presatRatio_root (dvLoad_pos h) h.water (one_pow 2)), ceq_above h⟩
  · simp only [waterOf, if_true, zero_mul]
  · simp only [waterOf, if_neg hi]
  · simp only [waterOf]
    split
    · rw [zero_mul]
    · rename_i hi
      exact mul_nonneg (div_nonneg (h.qnonneg i hi) (h.Kpos i).le) (pow_nonneg hs.le _)

/-- From below it tends to another water, in which every monovalent ion that the resin holds has a negative concentration. -/
theorem c286_below (h : Spec.Exhausting K val q CT) : ∃ (c : Fin (p + 1) → ℝ) (s : ℝ), s < 0 ∧ c 0 = 0 ∧ (∀ i, i ≠ 0 → c i = q i / K i * s ^ val i) ∧
    (∀ i, i ≠ 0 → val i = 1 → 0 < q i → c i < 0) ∧ Spec.Neutral c CT ∧ Tendsto (fun x => ceq K val (update q 0 x) CT) (𝓝[<] 0) (𝓝 c) := by
  have hs := (presatRatio_signs h).2
  refine ⟨_, presatRatio (dvLoad K val q) (mvLoad K val q) CT (-1) 0, hs, ?_, fun i hi => ?_, fun i hi hv hq => ?_,
    waterOf_neutral h (presatRatio_root (dvLoad_pos h) h.water (by norm_num)), ceq_below h⟩
  · simp only [waterOf, if_true, zero_mul]
  · simp only [waterOf, if_neg hi]
  · simp only [waterOf, if_neg hi, hv, pow_one]
    exact mul_neg_of_pos_of_neg (div_pos hq (h.Kpos i)) hs

/-- Where the resin holds no other monovalent ion both sides agree, so the full statement holds. -/
theorem c286_divalent (h : Spec.Exhausting K val q CT) (hm : ∀ i, i ≠ 0 → val i = 1 → q i = 0) :
    ∃ c : Fin (p + 1) → ℝ, (∀ i, 0 ≤ c i) ∧ Spec.Neutral c CT ∧ Tendsto (fun x => ceq K val (update q 0 x) CT) (𝓝[≠] 0) (𝓝 c) := by
  obtain ⟨c, s, hs, h0, hc, hn, hN, ht⟩ := c286_partial h
  obtain ⟨c', s', hs', h0', hc', _, hN', ht'⟩ := c286_below h
  have hB : mvLoad K val q = 0 := by
    refine Finset.sum_eq_zero fun i _ => ?_
    split
    · rename_i hi
      rw [hm i hi.2 hi.1, zero_div]
    · rfl
  have e : waterOf K val q 0 (presatRatio (dvLoad K val q) (mvLoad K val q) CT (-1) 0) =
      waterOf K val q 0 (presatRatio (dvLoad K val q) (mvLoad K val q) CT 1 0) := by
    have hr : presatRatio (dvLoad K val q) (mvLoad K val q) CT (-1) 0 = -presatRatio (dvLoad K val q) (mvLoad K val q) CT 1 0 := by
      rw [hB]
      unfold presatRatio
      ring
    rw [hr]
    funext i
    unfold waterOf
    by_cases hi : i = 0
    · rw [if_pos hi, if_pos hi, zero_mul, zero_mul]
    · rw [if_neg hi, if_neg hi]
      rcases h.vals i with hv | hv
      · rw [hm i hi hv, zero_div, zero_mul, zero_mul]
      · rw [hv, neg_sq]
  refine ⟨c, hn, hN, ?_⟩
  have ec := tendsto_nhds_unique ht (ceq_above h)
  have hb := ceq_below h
  rw [e, ← ec] at hb
  rw [← Set.Iio_union_Ioi, nhdsWithin_union]
  exact hb.sup ht

/-- The batch code has the same equilibria on both sides of zero. -/
theorem c286_batch (h : Spec.Exhausting K val q CT) {x : ℝ} (hx : x ≠ 0) :
    ceqBatch K val (update q 0 x) CT = some (ceq K val (update q 0 x) CT) := by
  rcases lt_or_gt_of_ne hx with hl | hg
  · have := ceq_signed h hx (σ := -1) (by norm_num) (by linarith)
    rw [this.2, this.1]
  · have := ceq_signed h hx (σ := 1) (by norm_num) (by linarith)
    rw [this.2, this.1]

/-- The web application, at every axial point: from above a water without negative concentrations, from below one in which every monovalent ion on the
resin has a negative concentration. -/
theorem c286_web (h : Spec.Exhausting K val q CT) (w : ℕ) : ∃ a b : Fin p → ℝ,
    Tendsto (fun x (i : Fin p) => rCstar K val (update q 0 x) CT w i.succ) (𝓝[>] 0) (𝓝 a) ∧
    Tendsto (fun x (i : Fin p) => rCstar K val (update q 0 x) CT w i.succ) (𝓝[<] 0) (𝓝 b) ∧
    (∀ i, 0 ≤ a i) ∧ ∑ i, a i = CT ∧ ∑ i, b i = CT ∧ ∀ i : Fin p, val i.succ = 1 → 0 < q i.succ → b i < 0 := by
  obtain ⟨c, _, _, h0, _, hn, hN, ht⟩ := c286_partial h
  obtain ⟨d, _, _, h0', _, hneg, hN', ht'⟩ := c286_below h
  unfold Spec.Neutral at hN hN'
  rw [Fin.sum_univ_succ, h0, zero_add] at hN
  rw [Fin.sum_univ_succ, h0', zero_add] at hN'
  refine ⟨fun i => c i.succ, fun i => d i.succ, ?_, ?_, fun i => hn _, hN, hN', fun i hv hq => hneg _ (Fin.succ_ne_zero i) hv hq⟩
  · refine tendsto_pi_nhds.2 fun i => ?_
    simp only [rCstar_eq]
    exact (tendsto_pi_nhds.1 ht) i.succ
  · refine tendsto_pi_nhds.2 fun i => ?_
    simp only [rCstar_eq]
    exact (tendsto_pi_nhds.1 ht') i.succ

/-- Not only in the limit: at every loading of the presaturant below zero each monovalent ion on the resin has a negative equilibrium concentration. -/
theorem c286_negative (h : Spec.Exhausting K val q CT) {x : ℝ} (hx : x < 0) {i : Fin (p + 1)} (hi : i ≠ 0) (hv : val i = 1) (hq : 0 < q i) :
    ceq K val (update q 0 x) CT i < 0 := by
  rw [(ceq_signed h hx.ne (σ := -1) (by norm_num) (by linarith)).1]
  unfold waterOf
  rw [if_neg hi, hv, pow_one]
  refine mul_neg_of_pos_of_neg (div_pos hq (h.Kpos i)) ?_
  have hA := dvLoad_pos h
  have hp : 0 < 4 * dvLoad K val q * CT := by have := h.water; positivity
  have hlt : |mvLoad K val q + x| < Real.sqrt ((mvLoad K val q + x) ^ 2 + 4 * dvLoad K val q * CT) := by
    refine Real.lt_sqrt_of_sq_lt ?_
    rw [sq_abs]
    linarith
  unfold presatRatio
  exact div_neg_of_neg_of_pos (by linarith [neg_abs_le (mvLoad K val q + x)]) (by positivity)

/-- So a vessel whose beads have a surface with less than no presaturant takes such an ion out of the water even if the water has none: its concentration falls
below zero. -/
theorem c286_vessel {r : ℕ} {P : BatchParams r p} {u : BatchState r p} (h : Spec.Exhausting P.K P.val (u (Fin.last (r + 1))) (∑ i, P.C0 i))
    (hx : u (Fin.last (r + 1)) 0 < 0) (hk : 0 < P.kL) (hVR : 0 < P.VR) (hVL : 0 < P.VL) (hrb : 0 < P.rb) {i : Fin (p + 1)} (hi : i ≠ 0) (hv : P.val i = 1)
    (hq : 0 < u (Fin.last (r + 1)) i) (hC : 0 ≤ u 0 i) : ∃ d, hsdmBatchRhs P u = some d ∧ d 0 i < 0 := by
  have hb := c286_batch h hx.ne
  have hn := c286_negative h hx hi hv hq
  rw [update_eq_self] at hb hn
  unfold hsdmBatchRhs
  dsimp only
  rw [hb, Option.map_some]
  refine ⟨_, rfl, ?_⟩
  unfold batchAssemble
  rw [Fin.cases_zero]
  have hJ : -P.kL * (u 0 i - ceq P.K P.val (u (Fin.last (r + 1))) (∑ i, P.C0 i) i) < 0 := by
    rw [neg_mul]
    exact neg_neg_of_pos (mul_pos hk (by linarith))
  exact div_neg_of_neg_of_pos (mul_neg_of_pos_of_neg (by positivity) hJ) hVL

end

theorem exhausting_case : Spec.Exhausting (p := 2) ![1, 2, 1 / 2] ![1, 1, 2] ![0, 4, 3] 5 where
  Kpos := by intro i; fin_cases i <;> norm_num
  valRef := rfl
  vals := by intro i; fin_cases i <;> simp
  qnonneg := by intro i _; fin_cases i <;> norm_num
  divalent := ⟨2, rfl, show (0:ℝ) < 3 by norm_num⟩
  water := by norm_num

/-- The full statement is false: with another monovalent ion on the resin the two sides differ. -/
theorem c286_false : ¬ C286 := by
  intro hC
  obtain ⟨c, hn, _, ht⟩ := hC _ _ _ _ _ exhausting_case
  obtain ⟨c', s, _, _, _, hneg, _, hb⟩ := c286_below exhausting_case
  have hl : (𝓝[<] (0:ℝ)) ≤ 𝓝[≠] 0 := nhdsWithin_mono _ fun x hx => ne_of_lt hx
  have e := tendsto_nhds_unique (ht.mono_left hl) hb
  have h1 := hneg 1 (by decide) rfl (by norm_num)
  rw [← e] at h1
  exact absurd (hn 1) (not_le.2 h1)

/-- Concrete case: a resin with only sulfate besides the presaturant. -/
example : ∃ c : Fin 2 → ℝ, (∀ i, 0 ≤ c i) ∧ Spec.Neutral c 4 ∧
    Tendsto (fun x => ceq ![1, 1 / 2] ![1, 2] (update ![7, 3] 0 x) 4) (𝓝[≠] 0) (𝓝 c) := by
  refine c286_divalent (p := 1) ⟨?_, rfl, ?_, ?_, ⟨1, rfl, by norm_num⟩, by norm_num⟩ ?_
  · intro i; fin_cases i <;> norm_num
  · intro i; fin_cases i <;> simp
  · intro i _; fin_cases i <;> norm_num
  · intro i hi hv; fin_cases i
    · exact absurd rfl hi
    · exact absurd hv (by decide)

example : ∃ (c : Fin 3 → ℝ) (s : ℝ), 0 < s ∧ c 0 = 0 ∧ (∀ i, i ≠ 0 → c i = ![0, 4, 3] i / ![1, 2, 1 / 2] i * s ^ ![1, 1, 2] i) ∧
    (∀ i, 0 ≤ c i) ∧ Spec.Neutral c 5 ∧ Tendsto (fun x => ceq ![1, 2, 1 / 2] ![1, 1, 2] (update ![0, 4, 3] 0 x) 5) (𝓝[>] 0) (𝓝 c) :=
  c286_partial exhausting_case

example : ceqBatch ![1, 2, 1 / 2] ![1, 1, 2] (update ![0, 4, 3] 0 (-1)) 5 = some (ceq ![1, 2, 1 / 2] ![1, 1, 2] (update ![0, 4, 3] 0 (-1)) 5) :=
  c286_batch exhausting_case (by norm_num)

/-- Concrete case: a vessel with nitrate and sulfate on the resin, a presaturant just below zero and water without nitrate. -/
example (Br : Fin 2 → Fin 2 → ℝ) (Wr : Fin 2 → ℝ) :
    let P : BatchParams 1 2 := ⟨1, 1, 0.3, 1, 10, 1e-7, 1e-6, 1e-3, 0.03, ![0, 0, 5], ![1, 2, 1 / 2], ![1, 1, 2], Br, Wr⟩
    ∃ d, hsdmBatchRhs P ![![0, 0, 5], ![1, 1, 1], ![-1 / 1000, 4, 3]] = some d ∧ d 0 1 < 0 := by
  intro P
  have e : (∑ i, P.C0 i) = 5 := by
    show (∑ i, (![0, 0, 5] : Fin 3 → ℝ) i) = 5
    rw [Fin.sum_univ_three]
    show (0:ℝ) + 0 + 5 = 5
    norm_num
  refine c286_vessel (P := P) ⟨?_, rfl, ?_, ?_, ⟨2, rfl, ?_⟩, ?_⟩ ?_ ?_ ?_ ?_ ?_ (by decide) rfl ?_ ?_
  · intro i; show 0 < (![1, 2, 1 / 2] : Fin 3 → ℝ) i; fin_cases i <;> norm_num
  · intro i; show (![1, 1, 2] : Fin 3 → ℕ) i = 1 ∨ (![1, 1, 2] : Fin 3 → ℕ) i = 2; fin_cases i <;> simp
  · intro i hi
    show 0 ≤ (![-1 / 1000, 4, 3] : Fin 3 → ℝ) i
    fin_cases i
    · exact absurd rfl hi
    · norm_num
    · norm_num
  · show (0:ℝ) < 3; norm_num
  · rw [e]; norm_num
  · show (-1 / 1000 : ℝ) < 0; norm_num
  · show (0:ℝ) < 1e-3; norm_num
  · show (0:ℝ) < 1; norm_num
  · show (0:ℝ) < 10; norm_num
  · show (0:ℝ) < 0.03; norm_num
  · show (0:ℝ) < 4; norm_num
  · exact le_rfl

end WTM
