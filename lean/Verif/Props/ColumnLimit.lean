import Verif.Lemmas.ColumnDecay
import Verif.Lemmas.ElementForm
import Verif.Props.IexBlend
import Verif.Props.Balance

/-! Properties C255-C258: without selectivity a column fed with a constant water is exhausted exponentially, in both column models, whatever the
number of axial nodes, elements and radial nodes, and its mean breakthrough time is the time scale of the code. -/
set_option autoImplicit false
namespace WTM
open BigOperators Set

section
variable {r p z : ℕ}

/-- Specification: a column of either model without selectivity, on the radial grid of the code. -/
structure Spec.PlainColumn (m : ColModel) (P : ColParams r p z) (jac : Fin r → ℝ) (tH : ℝ) : Prop where
  grid : Spec.BeadGrid jac P.Br P.Wr
  bed : 0 < P.EBED ∧ P.EBED < 1
  flow : 0 < P.v ∧ 0 < P.L
  size : 0 < P.rb
  time : 0 < tH
  rates : ∀ i, i ≠ 0 → 0 < P.Ds i ∧ 0 < P.kL i
  pore : m = .psdm → 0 ≤ P.EPOR ∧ P.EPOR < 1 ∧ ∀ i, i ≠ 0 → P.Ds i ≤ P.Dp i
  alike : ∀ i, P.K i = 1
  single : ∀ i, P.val i ≠ 2

/-- Specification: states whose totals are `CT` in the water and `Q` in the beads, everywhere. -/
structure Spec.Totals (CT Q : ℝ) (u : ColState r p z) : Prop where
  water : ∀ w, w ≠ 0 → ∑ i, u 0 i w = CT
  beads : ∀ (k : Fin (r + 1)) w, ∑ i, u k.succ i w = Q

/-- Coefficient of diffusion in the beads of ion `i`. -/
noncomputable def plainBeta (m : ColModel) (P : ColParams r p z) (tH a : ℝ) (i : Fin (p + 1)) : ℝ :=
  match m with
  | .hsdm => P.Ds i * tH / P.rb ^ 2
  | .psdm => tH * (P.EPOR * (P.Dp i - P.Ds i) * a + P.Ds i) / P.rb ^ 2

theorem plainBeta_pos {m : ColModel} {P : ColParams r p z} {jac : Fin r → ℝ} {tH a : ℝ} (h : Spec.PlainColumn m P jac tH) (ha : 0 < a)
    {i : Fin (p + 1)} (hi : i ≠ 0) : 0 < plainBeta m P tH a i := by
  have hb := h.size
  have ht := h.time
  have hD := (h.rates i hi).1
  cases m with
  | hsdm => unfold plainBeta; positivity
  | psdm =>
    obtain ⟨he, -, hd⟩ := h.pore rfl
    have h1 : 0 ≤ P.Dp i - P.Ds i := sub_nonneg.2 (hd i hi)
    unfold plainBeta
    positivity

/-- Excess of ion `i` over the exhausted column, at axial point `w`. -/
noncomputable def excAt (cin : Fin (p + 1) → ℝ) (Q : ℝ) (i : Fin (p + 1)) (u : ColState r p z) (w : Fin (z + 1)) : (Fin (r + 1) → ℝ) × ℝ :=
  (fun k => u k.succ i w - Q * cin i / ∑ j, cin j, setInlet u cin 0 i w - cin i)

theorem excAt_inlet (cin : Fin (p + 1) → ℝ) (Q : ℝ) (i : Fin (p + 1)) (u : ColState r p z) : (excAt cin Q i u 0).2 = 0 := by
  simp [excAt, setInlet]

variable {m : ColModel} {P : ColParams r p z} {jac : Fin r → ℝ} {tH : ℝ} {cin : Fin (p + 1) → ℝ} {Q : ℝ}

theorem plain_ceq (h : Spec.PlainColumn m P jac tH) (hQ : 0 < Q) {q : Fin (p + 1) → ℝ} (hq : ∑ i, q i = Q) (CT : ℝ) (i : Fin (p + 1)) :
    ceq P.K P.val (fun i => m.load P (q i)) CT i = CT / Q * q i := by
  have h2 : ¬ ∃ i, P.val i = 2 := fun ⟨i, hi⟩ => h.single i hi
  unfold ceq
  rw [if_neg h2]
  unfold ceqMv alphaMat
  simp only [h.alike, div_one, one_mul]
  cases m with
  | hsdm =>
    show q i * CT / ∑ j, q j = _
    rw [hq]; ring
  | psdm =>
    obtain ⟨-, he, -⟩ := h.pore rfl
    have he' : 1 - P.EPOR ≠ 0 := by linarith
    show q i / (1 - P.EPOR) * CT / ∑ j, q j / (1 - P.EPOR) = _
    rw [← Finset.sum_div, hq]
    field_simp

theorem plain_total {u : ColState r p z} (hu : Spec.Totals (∑ i, cin i) Q u) (w : Fin (z + 1)) :
    ∑ i, setInlet u cin 0 i w = ∑ i, cin i := by
  rw [setInlet_total]
  split
  · rfl
  · exact hu.water w ‹_›

theorem plain_flux (h : Spec.PlainColumn m P jac tH) (hC : 0 < ∑ i, cin i) (hQ : 0 < Q) {u : ColState r p z} (hu : Spec.Totals (∑ i, cin i) Q u)
    {i : Fin (p + 1)} (hi : i ≠ 0) (w : Fin (z + 1)) : m.flux P (setInlet u cin) i w =
      -(P.kL i * ((excAt cin Q i u w).2 - (∑ j, cin j) / Q * (excAt cin Q i u w).1 (Fin.last r))) := by
  unfold ColModel.flux fluxJ implicitRef
  rw [if_neg hi, plain_total hu, ← Fin.succ_last]
  simp only [setInlet_bead]
  rw [plain_ceq h hQ (hu.beads (Fin.last r) w)]
  unfold excAt
  field_simp
  ring

theorem plain_bead (h : Spec.PlainColumn m P jac tH) (hQ : 0 < Q) {u : ColState r p z} (hu : Spec.Totals (∑ i, cin i) Q u)
    {i : Fin (p + 1)} (hi : i ≠ 0) (k : Fin (r + 1)) (w : Fin (z + 1)) : m.bead P tH (setInlet u cin) k i w =
      ∑ l, P.Br k l * (plainBeta m P tH ((∑ j, cin j) / Q) i * (excAt cin Q i u w).1 l) := by
  have hz : ∀ c b : ℝ, ∑ l, P.Br k l * (b * (u l.succ i w - c)) = b * ∑ l, P.Br k l * u l.succ i w := by
    intro c b
    have : ∀ l, P.Br k l * (b * (u l.succ i w - c)) = b * (P.Br k l * u l.succ i w) - b * c * P.Br k l := fun l => by ring
    simp only [this]
    rw [Finset.sum_sub_distrib, ← Finset.mul_sum, ← Finset.mul_sum, h.grid.rows, mul_zero, sub_zero]
  unfold excAt
  simp only
  rw [hz]
  cases m with
  | hsdm =>
    show hsdmBead P tH _ k i w = _
    unfold hsdmBead implicitRef
    rw [if_neg hi]
    simp only [setInlet_bead]
    rfl
  | psdm =>
    show psdmBead P tH _ k i w = _
    have hp : ∀ l, poreConc P (setInlet u cin) l i w = (∑ j, cin j) / Q * u l.succ i w := by
      intro l
      unfold poreConc
      rw [plain_total hu]
      simp only [setInlet_bead]
      exact plain_ceq h hQ (hu.beads l w) _ i
    unfold psdmBead implicitRef
    rw [if_neg hi]
    simp only [setInlet_bead, hp]
    have : ∀ l, P.Br k l * ((∑ j, cin j) / Q * u l.succ i w) = (∑ j, cin j) / Q * (P.Br k l * u l.succ i w) := fun l => by ring
    simp only [this]
    rw [← Finset.mul_sum]
    unfold plainBeta
    ring

/-- The rates of an ion in the beads at an axial point are those of a tank with a linear isotherm. -/
theorem plain_beadRate (h : Spec.PlainColumn m P jac tH) (hC : 0 < ∑ i, cin i) (hQ : 0 < Q) {u : ColState r p z} (hu : Spec.Totals (∑ i, cin i) Q u)
    {i : Fin (p + 1)} (hi : i ≠ 0) (μ : ℝ) (k : Fin (r + 1)) (w : Fin (z + 1)) : m.rhs P tH cin u k.succ i w =
      (tankCL ((∑ j, cin j) / Q) (plainBeta m P tH ((∑ j, cin j) / Q) i) (tH * P.kL i / P.rb) μ P.Br P.Wr (excAt cin Q i u w)).1 k := by
  rw [rhs_eq, assemble_bead, tankCL_apply]
  simp only [tankRhs, tankPsi, zero_mul, zero_add]
  split
  · rw [plain_flux h hC hQ hu hi]
    simp only [plain_bead h hQ hu hi]
    congr 1
    ring
  · exact plain_bead h hQ hu hi k w

theorem plain_liqRate (h : Spec.PlainColumn m P jac tH) (hA : Spec.MovesAll P.Az) (hC : 0 < ∑ i, cin i) (hQ : 0 < Q) {u : ColState r p z}
    (hu : Spec.Totals (∑ i, cin i) Q u) {i : Fin (p + 1)} (hi : i ≠ 0) (w : Fin z) : m.rhs P tH cin u 0 i w.succ =
      (tankCL ((∑ j, cin j) / Q) (plainBeta m P tH ((∑ j, cin j) / Q) i) (tH * P.kL i / P.rb) (3 * (1 - P.EBED) / P.EBED) P.Br P.Wr
        (excAt cin Q i u w.succ)).2 -
      P.v * tH / (P.L * P.EBED) * ∑ w' : Fin z, P.Az w.succ w'.succ * (excAt cin Q i u w'.succ).2 := by
  have hE := h.bed.1.ne'
  have hL := h.flow.2.ne'
  have hb := h.size.ne'
  have hadv : ∑ w', P.Az w.succ w' * setInlet u cin 0 i w' = ∑ w' : Fin z, P.Az w.succ w'.succ * (excAt cin Q i u w'.succ).2 := by
    have h0 := (hA (fun _ => 1)).2 (fun _ => rfl) w.succ (Fin.succ_ne_zero w)
    simp only [mul_one] at h0
    have e : ∑ w', P.Az w.succ w' * (excAt cin Q i u w').2 = ∑ w', P.Az w.succ w' * setInlet u cin 0 i w' := by
      unfold excAt
      simp only [mul_sub]
      rw [Finset.sum_sub_distrib, ← Finset.sum_mul, h0, zero_mul, sub_zero]
    rw [← e, Fin.sum_univ_succ, excAt_inlet, mul_zero, zero_add]
  rw [rhs_eq, assemble_liq, if_neg (Fin.succ_ne_zero w), liqRate, hadv, plain_flux h hC hQ hu hi, tankCL_apply]
  simp only [tankRhs]
  field_simp
  ring

/-- The excesses below the inlet follow the linear column. -/
theorem plain_rates (h : Spec.PlainColumn m P jac tH) (hA : Spec.MovesAll P.Az) (hC : 0 < ∑ i, cin i) (hQ : 0 < Q) {u : ColState r p z}
    (hu : Spec.Totals (∑ i, cin i) Q u) {i : Fin (p + 1)} (hi : i ≠ 0) :
    (fun w : Fin z => ((fun k => m.rhs P tH cin u k.succ i w.succ : Fin (r + 1) → ℝ), m.rhs P tH cin u 0 i w.succ)) =
      colCL ((∑ j, cin j) / Q) (plainBeta m P tH ((∑ j, cin j) / Q) i) (tH * P.kL i / P.rb) (3 * (1 - P.EBED) / P.EBED)
        (P.v * tH / (P.L * P.EBED)) P.Az P.Br P.Wr (fun w => excAt cin Q i u w.succ) ∧
    (fun k => m.rhs P tH cin u k.succ i 0 : Fin (r + 1) → ℝ) =
      inletCL ((∑ j, cin j) / Q) (plainBeta m P tH ((∑ j, cin j) / Q) i) (tH * P.kL i / P.rb) P.Br P.Wr (excAt cin Q i u 0).1 := by
  refine ⟨funext fun w => ?_, funext fun k => ?_⟩
  · rw [colCL_apply]
    refine Prod.ext (funext fun k => ?_) ?_
    · rw [Prod.fst_sub, sub_zero]
      exact plain_beadRate h hC hQ hu hi _ k w.succ
    · rw [Prod.snd_sub]
      exact plain_liqRate h hA hC hQ hu hi w
  · rw [inletCL_apply]
    have e : (((excAt cin Q i u 0).1, 0) : (Fin (r + 1) → ℝ) × ℝ) = excAt cin Q i u 0 := Prod.ext rfl (excAt_inlet cin Q i u).symm
    rw [e]
    exact plain_beadRate h hC hQ hu hi 1 k 0

/-- The totals of the rates vanish. -/
theorem plain_sums (hA : Spec.MovesAll P.Az) {u : ColState r p z} (hu : Spec.Totals (∑ i, cin i) Q u)
    (a : Fin (r + 2)) (w : Fin (z + 1)) : ∑ i, m.rhs P tH cin u a i w = 0 := by
  refine Fin.cases ?_ (fun k => c28_rates m P tH cin u k w) a
  by_cases hw : w = 0
  · simp only [rhs_eq, assemble_liq, if_pos hw, Finset.sum_const_zero]
  · rw [c30_advection_only m P tH cin u hw]
    simp only [plain_total hu]
    rw [(hA fun _ => ∑ i, cin i).2 (fun _ => rfl) w hw]
    simp

theorem first_of_others {F : Fin (p + 1) → ℝ} {s : ℝ} (h : ∑ i, F i = s) : F 0 = s - ∑ j : Fin p, F j.succ := by
  rw [← h, Fin.sum_univ_succ]; ring

/-- The exhausted column. -/
noncomputable def Spec.exhausted (cin : Fin (p + 1) → ℝ) (Q : ℝ) : ColState r p z :=
  fun a i _ => if a = 0 then cin i else Q * cin i / ∑ j, cin j

theorem exhausted_totals (hC : 0 < ∑ i, cin i) : Spec.Totals (∑ i, cin i) Q (Spec.exhausted cin Q : ColState r p z) := by
  refine ⟨fun w _ => ?_, fun k w => ?_⟩
  · simp [Spec.exhausted]
  · simp only [Spec.exhausted, Fin.succ_ne_zero, if_false]
    rw [← Finset.sum_div, ← Finset.mul_sum]
    field_simp

theorem exhausted_rest (h : Spec.PlainColumn m P jac tH) (hA : Spec.MovesAll P.Az) (hC : 0 < ∑ i, cin i) (hQ : 0 < Q) :
    m.rhs P tH cin (Spec.exhausted cin Q) = fun _ _ _ => 0 := by
  have ht := exhausted_totals (r := r) (z := z) (Q := Q) hC
  have hz : ∀ i w, excAt cin Q i (Spec.exhausted cin Q : ColState r p z) w = 0 := by
    intro i w
    refine Prod.ext (funext fun k => ?_) ?_
    · simp [excAt, Spec.exhausted, Fin.succ_ne_zero]
    · show setInlet _ cin 0 i w - cin i = 0
      unfold setInlet
      split <;> simp [Spec.exhausted]
  have hother : ∀ i, i ≠ 0 → ∀ a w, m.rhs P tH cin (Spec.exhausted cin Q) a i w = 0 := by
    intro i hi a w
    refine Fin.cases ?_ (fun k => ?_) a
    · refine Fin.cases ?_ (fun w => ?_) w
      · simp only [rhs_eq, assemble_liq, if_true]
      · rw [plain_liqRate h hA hC hQ ht hi]
        simp only [hz]
        simp
    · rw [plain_beadRate h hC hQ ht hi 1, hz]
      simp
  funext a i w
  by_cases hi : i = 0
  · rw [hi, first_of_others (plain_sums hA ht a w)]
    simp only [hother _ (Fin.succ_ne_zero _), Finset.sum_const_zero, sub_zero]
  · exact hother i hi a w

/-- Totals persist under every influent of one total. -/
theorem totals_stay_var (h : Spec.PlainColumn m P jac tH) (hA : Spec.MovesAll P.Az) {CT : ℝ} (hC : 0 < CT) (hQ : 0 < Q) {T : ℝ}
    {cin : ℝ → Fin (p + 1) → ℝ} (hc : ∀ t ∈ Icc 0 T, ∑ i, cin t i = CT)
    {y : ℝ → ColState r p z} (hy : Spec.Solves colComp (fun t u => m.rhs P tH (cin t) u) 0 T y) (h0 : Spec.Totals CT Q (y 0)) :
    ∀ t ∈ Icc 0 T, Spec.Totals CT Q (y t) := by
  intro t ht
  have e0 := hc 0 ⟨le_rfl, ht.1.trans ht.2⟩
  have hC0 : 0 < ∑ i, cin 0 i := by rw [e0]; exact hC
  have hrest : Spec.Solves colComp (fun t u => m.rhs P tH ((fun _ => cin 0) t) u) 0 T
      (fun _ => (Spec.exhausted (cin 0) Q : ColState r p z)) := by
    intro t _ a
    beta_reduce
    rw [exhausted_rest h hA hC0 hQ]
    exact hasDerivWithinAt_const _ _ _
  have hx := exhausted_totals (r := r) (z := z) (Q := Q) hC0
  refine ⟨fun w hw => ?_, fun k w => ?_⟩
  · have := totals_follow m P tH (cin := fun _ => cin 0) (cin' := cin) (fun s hs => by rw [hc s hs, e0]) hrest hy
      (fun w hw => by rw [h0.water w hw, hx.water w hw, e0]) t ht w hw
    rw [this, hx.water w hw, e0]
  · rw [c28_solutions m P tH cin hy ht, h0.beads]

/-- No concentration below the inlet and no loading of two states differs by more than `ε`. -/
def Spec.ColNear (ε : ℝ) (u u' : ColState r p z) : Prop :=
  (∀ i w, w ≠ 0 → |u 0 i w - u' 0 i w| ≤ ε) ∧ ∀ (k : Fin (r + 1)) i w, |u k.succ i w - u' k.succ i w| ≤ ε

/-- C257 for any axial operator with the energy of `AxialForm`. -/
theorem plain_forgets (h : Spec.PlainColumn m P jac tH) (hA : Spec.MovesAll P.Az) {G : Fin z → Fin z → ℝ} (hG : AxialForm P.Az G)
    {CT : ℝ} (hC : 0 < CT) (hQ : 0 < Q) : ∃ C ω : ℝ, 0 < C ∧ 0 < ω ∧ ∀ (ε T : ℝ) (cin : ℝ → Fin (p + 1) → ℝ) (y y' : ℝ → ColState r p z),
      (∀ t ∈ Icc 0 T, ∑ i, cin t i = CT) → Spec.Solves colComp (fun t u => m.rhs P tH (cin t) u) 0 T y →
      Spec.Solves colComp (fun t u => m.rhs P tH (cin t) u) 0 T y' → Spec.Totals CT Q (y 0) → Spec.Totals CT Q (y' 0) →
      Spec.ColNear ε (y 0) (y' 0) → ∀ t ∈ Icc 0 T, Spec.ColNear (C * Real.exp (-(ω * t)) * ε) (y t) (y' t) := by
  have ha : 0 < CT / Q := div_pos hC hQ
  have hb := h.size
  have hE := h.bed
  have hE1 : 0 < 1 - P.EBED := sub_pos.2 hE.2
  have hE0 := hE.1
  have htm := h.time
  have hv := h.flow.1
  have hL := h.flow.2
  have hμ : 0 < 3 * (1 - P.EBED) / P.EBED := by positivity
  have hκ : 0 < P.v * tH / (P.L * P.EBED) := by positivity
  have hf : ∀ i, i ≠ 0 → 0 < tH * P.kL i / P.rb := fun i hi => by
    have := (h.rates i hi).2
    positivity
  -- one ion
  have hone : ∀ j : Fin p, ∃ C ω : ℝ, 0 < C ∧ 0 < ω ∧ ∀ (ε T : ℝ) (cin : ℝ → Fin (p + 1) → ℝ) (y y' : ℝ → ColState r p z),
      (∀ t ∈ Icc 0 T, ∑ i, cin t i = CT) → Spec.Solves colComp (fun t u => m.rhs P tH (cin t) u) 0 T y →
      Spec.Solves colComp (fun t u => m.rhs P tH (cin t) u) 0 T y' → Spec.Totals CT Q (y 0) → Spec.Totals CT Q (y' 0) →
      Spec.ColNear ε (y 0) (y' 0) →
      ∀ t ∈ Icc 0 T, (∀ w : Fin z, |y t 0 j.succ w.succ - y' t 0 j.succ w.succ| ≤ C * Real.exp (-(ω * t)) * ε) ∧
        ∀ (k : Fin (r + 1)) w, |y t k.succ j.succ w - y' t k.succ j.succ w| ≤ C * Real.exp (-(ω * t)) * ε := by
    intro j
    have hi : j.succ ≠ 0 := Fin.succ_ne_zero j
    have hβ := plainBeta_pos h ha hi
    obtain ⟨C1, ω1, hC1, hω1, h1⟩ := column_settle h.grid hA hG ha hβ (hf _ hi) hμ hκ
    obtain ⟨C2, ω2, hC2, hω2, h2⟩ := inlet_settle h.grid ha hβ (hf _ hi)
    refine ⟨max C1 C2, min ω1 ω2, lt_max_of_lt_left hC1, lt_min hω1 hω2, fun ε T cin y y' hc hy hy' h0 h0' hε t ht => ?_⟩
    have hst := totals_stay_var h hA hC hQ hc hy h0
    have hst' := totals_stay_var h hA hC hQ hc hy' h0'
    have hset : ∀ (c : Fin (p + 1) → ℝ) (u : ColState r p z) (w : Fin z), setInlet u c 0 j.succ w.succ = u 0 j.succ w.succ := by
      intro c u w
      unfold setInlet
      rw [if_neg]
      rintro ⟨-, h⟩
      exact Fin.succ_ne_zero w h
    have hε0 : 0 ≤ ε := (abs_nonneg _).trans (hε.2 0 0 0)
    have ht0 := ht.1
    have e1 : C1 * Real.exp (-(ω1 * t)) * ε ≤ max C1 C2 * Real.exp (-(min ω1 ω2 * t)) * ε := by
      refine mul_le_mul_of_nonneg_right (mul_le_mul (le_max_left _ _) (Real.exp_le_exp.2 ?_) (Real.exp_pos _).le
        (le_max_of_le_left hC1.le)) hε0
      exact neg_le_neg (mul_le_mul_of_nonneg_right (min_le_left _ _) ht0)
    have e2 : C2 * Real.exp (-(ω2 * t)) * ε ≤ max C1 C2 * Real.exp (-(min ω1 ω2 * t)) * ε := by
      refine mul_le_mul_of_nonneg_right (mul_le_mul (le_max_right _ _) (Real.exp_le_exp.2 ?_) (Real.exp_pos _).le
        (le_max_of_le_left hC1.le)) hε0
      exact neg_le_neg (mul_le_mul_of_nonneg_right (min_le_right _ _) ht0)
    let D : ℝ → ColExc r z := fun t w => (fun k => y t k.succ j.succ w.succ - y' t k.succ j.succ w.succ,
      y t 0 j.succ w.succ - y' t 0 j.succ w.succ)
    let D0 : ℝ → Fin (r + 1) → ℝ := fun t k => y t k.succ j.succ 0 - y' t k.succ j.succ 0
    have hrate : ∀ s ∈ Icc 0 T,
        (fun w : Fin z => ((fun k => m.rhs P tH (cin s) (y s) k.succ j.succ w.succ - m.rhs P tH (cin s) (y' s) k.succ j.succ w.succ :
          Fin (r + 1) → ℝ), m.rhs P tH (cin s) (y s) 0 j.succ w.succ - m.rhs P tH (cin s) (y' s) 0 j.succ w.succ)) =
        colCL (CT / Q) (plainBeta m P tH (CT / Q) j.succ) (tH * P.kL j.succ / P.rb) (3 * (1 - P.EBED) / P.EBED)
          (P.v * tH / (P.L * P.EBED)) P.Az P.Br P.Wr (D s) ∧
        (fun k => m.rhs P tH (cin s) (y s) k.succ j.succ 0 - m.rhs P tH (cin s) (y' s) k.succ j.succ 0 : Fin (r + 1) → ℝ) =
        inletCL (CT / Q) (plainBeta m P tH (CT / Q) j.succ) (tH * P.kL j.succ / P.rb) P.Br P.Wr (D0 s) := by
      intro s hs
      have hcs := hc s hs
      have a1 := plain_rates h hA (cin := cin s) (by rw [hcs]; exact hC) hQ (by rw [hcs]; exact hst s hs) hi
      have a2 := plain_rates h hA (cin := cin s) (by rw [hcs]; exact hC) hQ (by rw [hcs]; exact hst' s hs) hi
      rw [hcs] at a1 a2
      have d1 : D s = (fun w : Fin z => excAt (cin s) Q j.succ (y s) w.succ) - fun w : Fin z => excAt (cin s) Q j.succ (y' s) w.succ := by
        funext w
        refine Prod.ext (funext fun k => ?_) ?_
        · show _ = (y s k.succ j.succ w.succ - _) - (y' s k.succ j.succ w.succ - _)
          simp only [D]
          ring
        · show _ = (setInlet (y s) (cin s) 0 j.succ w.succ - _) - (setInlet (y' s) (cin s) 0 j.succ w.succ - _)
          simp only [hset, D]
          ring
      have d2 : D0 s = (excAt (cin s) Q j.succ (y s) 0).1 - (excAt (cin s) Q j.succ (y' s) 0).1 := by
        funext k
        show _ = (y s k.succ j.succ 0 - _) - (y' s k.succ j.succ 0 - _)
        simp only [D0]
        ring
      rw [d1, d2, map_sub, map_sub, ← a1.1, ← a2.1, ← a1.2, ← a2.2]
      exact ⟨rfl, rfl⟩
    have d1 := h1 D T (fun s hs => by
      rw [← (hrate s hs).1]
      refine hasDerivWithinAt_pi.2 fun w => ?_
      refine HasDerivWithinAt.prodMk (hasDerivWithinAt_pi.2 fun k => ?_) ?_
      · exact (hy s hs (k.succ, j.succ, w.succ)).sub (hy' s hs (k.succ, j.succ, w.succ))
      · exact (hy s hs (0, j.succ, w.succ)).sub (hy' s hs (0, j.succ, w.succ))) t ht
    have d2 := h2 D0 T (fun s hs => by
      rw [← (hrate s hs).2]
      exact hasDerivWithinAt_pi.2 fun k => (hy s hs (k.succ, j.succ, 0)).sub (hy' s hs (k.succ, j.succ, 0))) t ht
    have n1 : ‖D 0‖ ≤ ε := by
      refine (pi_norm_le_iff_of_nonneg hε0).2 fun w => (norm_prod_le_iff.2 ⟨(pi_norm_le_iff_of_nonneg hε0).2 fun k => ?_, ?_⟩)
      · exact hε.2 k j.succ w.succ
      · exact hε.1 j.succ w.succ (Fin.succ_ne_zero w)
    have n2 : ‖D0 0‖ ≤ ε := (pi_norm_le_iff_of_nonneg hε0).2 fun k => hε.2 k j.succ 0
    have b1 := (d1.trans (mul_le_mul_of_nonneg_left n1 (by positivity))).trans e1
    have b2 := (d2.trans (mul_le_mul_of_nonneg_left n2 (by positivity))).trans e2
    have c1 : ∀ w : Fin z, ‖D t w‖ ≤ _ := fun w => (norm_le_pi_norm (D t) w).trans b1
    refine ⟨fun w => (norm_snd_le _).trans (c1 w), fun k w => ?_⟩
    refine Fin.cases ?_ (fun w => ?_) w
    · exact (norm_le_pi_norm (D0 t) k).trans b2
    · exact (norm_le_pi_norm (D t w).1 k).trans ((norm_fst_le _).trans (c1 w))
  choose C ω hCp hωp hx using hone
  obtain ⟨ωm, hωm, hωle⟩ : ∃ ωm : ℝ, 0 < ωm ∧ ∀ j, ωm ≤ ω j := by
    rcases isEmpty_or_nonempty (Fin p) with he | he
    · exact ⟨1, one_pos, fun j => he.elim j⟩
    · obtain ⟨j0, hj0⟩ := Finite.exists_min ω
      exact ⟨ω j0, hωp j0, hj0⟩
  set S : ℝ := 1 + ∑ j, C j with hS
  have hSp : 0 < S := add_pos_of_pos_of_nonneg one_pos (Finset.sum_nonneg fun j _ => (hCp j).le)
  refine ⟨S, ωm, hSp, hωm, fun ε T cin y y' hc hy hy' h0 h0' hε t ht => ?_⟩
  have hst := totals_stay_var h hA hC hQ hc hy h0 t ht
  have hst' := totals_stay_var h hA hC hQ hc hy' h0' t ht
  have hε0 : 0 ≤ ε := (abs_nonneg _).trans (hε.2 0 0 0)
  have hle : ∀ j, C j * Real.exp (-(ω j * t)) * ε ≤ C j * (Real.exp (-(ωm * t)) * ε) := by
    intro j
    rw [mul_assoc]
    refine mul_le_mul_of_nonneg_left (mul_le_mul_of_nonneg_right (Real.exp_le_exp.2 ?_) hε0) (hCp j).le
    exact neg_le_neg (mul_le_mul_of_nonneg_right (hωle j) ht.1)
  have hE' : 0 ≤ Real.exp (-(ωm * t)) * ε := mul_nonneg (Real.exp_pos _).le hε0
  have hsum : ∑ j, C j * (Real.exp (-(ωm * t)) * ε) ≤ S * Real.exp (-(ωm * t)) * ε := by
    rw [← Finset.sum_mul, mul_assoc]
    exact mul_le_mul_of_nonneg_right (by rw [hS]; linarith) hE'
  have hj : ∀ j, C j * (Real.exp (-(ωm * t)) * ε) ≤ S * Real.exp (-(ωm * t)) * ε := fun j =>
    (Finset.single_le_sum (f := fun j => C j * (Real.exp (-(ωm * t)) * ε)) (fun j _ => mul_nonneg (hCp j).le hE') (Finset.mem_univ j)).trans hsum
  have hall : ∀ {F e : Fin (p + 1) → ℝ}, ∑ i, F i = ∑ i, e i → (∀ j : Fin p, |F j.succ - e j.succ| ≤ C j * (Real.exp (-(ωm * t)) * ε)) →
      ∀ i, |F i - e i| ≤ S * Real.exp (-(ωm * t)) * ε := by
    intro F e hFe hF i
    refine Fin.cases ?_ (fun j => (hF j).trans (hj j)) i
    have : F 0 - e 0 = -∑ j : Fin p, (F j.succ - e j.succ) := by
      rw [Finset.sum_sub_distrib]
      rw [Fin.sum_univ_succ, Fin.sum_univ_succ] at hFe
      linarith
    rw [this, abs_neg]
    exact (Finset.abs_sum_le_sum_abs _ _).trans ((Finset.sum_le_sum fun j _ => hF j).trans hsum)
  refine ⟨fun i w hw => ?_, fun k i w => ?_⟩
  · obtain ⟨w', rfl⟩ := Fin.exists_succ_eq.2 hw
    exact hall (F := fun i => y t 0 i w'.succ) (e := fun i => y' t 0 i w'.succ) (by rw [hst.water _ hw, hst'.water _ hw])
      (fun j => ((hx j ε T cin y y' hc hy hy' h0 h0' hε t ht).1 w').trans (hle j)) i
  · exact hall (F := fun i => y t k.succ i w) (e := fun i => y' t k.succ i w) (by rw [hst.beads, hst'.beads])
      (fun j => ((hx j ε T cin y y' hc hy hy' h0 h0' hε t ht).2 k w).trans (hle j)) i

/-- No concentration below the inlet and no loading of a state is more than `ε` away from the exhausted column. -/
def Spec.Within (cin : Fin (p + 1) → ℝ) (Q ε : ℝ) (u : ColState r p z) : Prop :=
  (∀ i w, w ≠ 0 → |u 0 i w - cin i| ≤ ε) ∧ ∀ (k : Fin (r + 1)) i w, |u k.succ i w - Q * cin i / ∑ j, cin j| ≤ ε

theorem within_near {ε : ℝ} {u : ColState r p z} : Spec.Within cin Q ε u ↔ Spec.ColNear ε u (Spec.exhausted cin Q) := by
  unfold Spec.Within Spec.ColNear Spec.exhausted
  simp only [if_true, Fin.succ_ne_zero, if_false]

/-- C255 for any axial operator with the energy of `AxialForm`. -/
theorem plain_settles (h : Spec.PlainColumn m P jac tH) (hA : Spec.MovesAll P.Az) {G : Fin z → Fin z → ℝ} (hG : AxialForm P.Az G)
    (hC : 0 < ∑ i, cin i) (hQ : 0 < Q) : ∃ C ω : ℝ, 0 < C ∧ 0 < ω ∧ ∀ (ε : ℝ) (T : ℝ) (y : ℝ → ColState r p z),
      Spec.Solves colComp (fun _ u => m.rhs P tH cin u) 0 T y → Spec.Totals (∑ i, cin i) Q (y 0) → Spec.Within cin Q ε (y 0) →
      ∀ t ∈ Icc 0 T, Spec.Within cin Q (C * Real.exp (-(ω * t)) * ε) (y t) := by
  obtain ⟨C, ω, hCp, hω, hx⟩ := plain_forgets h hA hG hC hQ
  refine ⟨C, ω, hCp, hω, fun ε T y hy h0 hε t ht => within_near.2 ?_⟩
  refine hx ε T (fun _ => cin) y (fun _ => Spec.exhausted cin Q) (fun _ _ => rfl) hy ?_ h0 (exhausted_totals hC) (within_near.1 hε) t ht
  intro t _ a
  beta_reduce
  rw [exhausted_rest h hA hC hQ]
  exact hasDerivWithinAt_const _ _ _

/-- Runs from every state with these totals exist for all time, under every continuous influent of this total. -/
theorem plain_run_var (h : Spec.PlainColumn m P jac tH) (hA : Spec.MovesAll P.Az) {CT : ℝ} (hC : 0 < CT) (hQ : 0 < Q)
    {cin : ℝ → Fin (p + 1) → ℝ} (hc : Continuous cin) (hs : ∀ t, ∑ i, cin t i = CT) {u : ColState r p z} (hu : Spec.Totals CT Q u) :
    ∃ y : ℝ → ColState r p z, y 0 = u ∧ ∀ T, Spec.Solves colComp (fun t u => m.rhs P tH (cin t) u) 0 T y := by
  have hci : ∀ i, Continuous fun t => cin t i := fun i => (continuous_apply i).comp hc
  set L : Fin (p + 1) → ColExc r z →L[ℝ] ColExc r z := fun i => colCL (CT / Q) (plainBeta m P tH (CT / Q) i)
    (tH * P.kL i / P.rb) (3 * (1 - P.EBED) / P.EBED) (P.v * tH / (P.L * P.EBED)) P.Az P.Br P.Wr with hL
  set L0 : Fin (p + 1) → (Fin (r + 1) → ℝ) →L[ℝ] (Fin (r + 1) → ℝ) := fun i => inletCL (CT / Q) (plainBeta m P tH (CT / Q) i)
    (tH * P.kL i / P.rb) P.Br P.Wr with hL0
  set F : Fin (p + 1) → ℝ → ColExc r z := fun i t _ => (fun _ => Q * cin t i / CT, cin t i) with hF
  set F0 : Fin (p + 1) → ℝ → Fin (r + 1) → ℝ := fun i t _ => Q * cin t i / CT with hF0
  have hFc : ∀ i, Continuous (F i) := fun i =>
    continuous_pi fun _ => (continuous_pi fun _ => (((hci i).const_mul Q).div_const CT)).prodMk (hci i)
  have hF0c : ∀ i, Continuous (F0 i) := fun i => continuous_pi fun _ => ((hci i).const_mul Q).div_const CT
  set X : Fin (p + 1) → ℝ → ColExc r z := fun i => linForced (L i) (fun t => -L i (F i t))
    (fun w => (fun k => u k.succ i w.succ, u 0 i w.succ)) with hX
  set I : Fin (p + 1) → ℝ → Fin (r + 1) → ℝ := fun i => linForced (L0 i) (fun t => -L0 i (F0 i t)) (fun k => u k.succ i 0) with hI
  set V : ℝ → ColState r p z := fun t a i w => Fin.cases (Fin.cases (u 0 i 0) (fun w' => (X i t w').2) w)
    (fun k => Fin.cases (I i t k) (fun w' => (X i t w').1 k) w) a with hV
  set y : ℝ → ColState r p z := fun t a i w => if i = 0 then ∑ i, u a i w - ∑ j : Fin p, V t a j.succ w else V t a i w with hy
  have hX0 : ∀ i, X i 0 = fun w => (fun k => u k.succ i w.succ, u 0 i w.succ) := fun i => linForced_zero _ _ _
  have hI0 : ∀ i, I i 0 = fun k => u k.succ i 0 := fun i => linForced_zero _ _ _
  have hset : ∀ (c : Fin (p + 1) → ℝ) (u : ColState r p z) i (w : Fin z), setInlet u c 0 i w.succ = u 0 i w.succ := by
    intro c u i w
    unfold setInlet
    rw [if_neg]
    rintro ⟨-, h⟩
    exact Fin.succ_ne_zero w h
  have hV0 : ∀ a i w, V 0 a i w = u a i w := by
    intro a i w
    refine Fin.cases ?_ (fun k => ?_) a
    · refine Fin.cases rfl (fun w' => ?_) w
      show (X i 0 w').2 = _
      rw [hX0]
    · refine Fin.cases ?_ (fun w' => ?_) w
      · show I i 0 k = _
        rw [hI0]
      · show (X i 0 w').1 k = _
        rw [hX0]
  have hyt : ∀ t a w, ∑ i, y t a i w = ∑ i, u a i w := by
    intro t a w
    rw [Fin.sum_univ_succ]
    simp only [hy, if_true, Fin.succ_ne_zero, if_false]
    ring
  have htot : ∀ t, Spec.Totals (∑ i, cin t i) Q (y t) := fun t =>
    ⟨fun w hw => by rw [hyt, hu.water w hw, hs], fun k w => by rw [hyt, hu.beads]⟩
  have hyV : ∀ t a i w, i ≠ 0 → y t a i w = V t a i w := fun t a i w hi => by simp only [hy, if_neg hi]
  have hexc : ∀ i, i ≠ 0 → ∀ t, (fun w : Fin z => excAt (cin t) Q i (y t) w.succ) = X i t - F i t := by
    intro i hi t
    funext w
    refine Prod.ext (funext fun k => ?_) ?_
    · show y t k.succ i w.succ - _ = _
      rw [hyV _ _ _ _ hi, hs]
      rfl
    · show setInlet (y t) (cin t) 0 i w.succ - cin t i = _
      rw [hset, hyV _ _ _ _ hi]
      rfl
  have hexc0 : ∀ i, i ≠ 0 → ∀ t, (excAt (cin t) Q i (y t) 0).1 = I i t - F0 i t := by
    intro i hi t
    funext k
    show y t k.succ i 0 - _ = _
    rw [hyV _ _ _ _ hi, hs]
    rfl
  have hder : ∀ i, i ≠ 0 → ∀ t a w, HasDerivAt (fun t => V t a i w) (m.rhs P tH (cin t) (y t) a i w) t := by
    intro i hi t a w
    have hr := plain_rates h hA (by rw [hs]; exact hC) hQ (htot t) hi
    rw [hexc i hi, hexc0 i hi, hs, map_sub, map_sub] at hr
    have d1 : HasDerivAt (X i) (L i (X i t) + -L i (F i t)) t :=
      linForced_deriv _ ((L i).continuous.comp (hFc i)).neg _ t
    have d2 : HasDerivAt (I i) (L0 i (I i t) + -L0 i (F0 i t)) t :=
      linForced_deriv _ ((L0 i).continuous.comp (hF0c i)).neg _ t
    rw [← sub_eq_add_neg] at d1 d2
    rw [← hr.1] at d1
    rw [← hr.2] at d2
    refine Fin.cases ?_ (fun k => ?_) a
    · refine Fin.cases ?_ (fun w' => ?_) w
      · have : m.rhs P tH (cin t) (y t) 0 i 0 = 0 := by simp only [rhs_eq, assemble_liq, if_true]
        rw [this]
        exact hasDerivAt_const t (u 0 i 0)
      · have := (tank_parts (hasDerivAt_pi.1 d1 w').hasDerivWithinAt (S := univ)).2
        rw [hasDerivWithinAt_univ] at this
        exact this
    · refine Fin.cases ?_ (fun w' => ?_) w
      · exact hasDerivAt_pi.1 d2 k
      · have := (tank_parts (hasDerivAt_pi.1 d1 w').hasDerivWithinAt (S := univ)).1 k
        rw [hasDerivWithinAt_univ] at this
        exact this
  refine ⟨y, ?_, fun T t _ => ?_⟩
  · funext a i w
    by_cases hi : i = 0
    · simp only [hy, if_pos hi, hV0]
      rw [hi, Fin.sum_univ_succ]
      ring
    · rw [hyV _ _ _ _ hi, hV0]
  · rintro ⟨a, i, w⟩
    show HasDerivWithinAt (fun s => y s a i w) (m.rhs P tH (cin t) (y t) a i w) (Icc 0 T) t
    refine HasDerivAt.hasDerivWithinAt ?_
    by_cases hi : i = 0
    · rw [hi, first_of_others (plain_sums hA (htot t) a w), zero_sub]
      simp only [hy, if_true]
      refine (HasDerivAt.fun_sum fun j _ => hder j.succ (Fin.succ_ne_zero j) t a w).const_sub _
    · simp only [hyV _ _ _ _ hi]
      exact hder i hi t a w

/-- Runs of columns with these totals are unique. -/
theorem plain_unique (h : Spec.PlainColumn m P jac tH) (hA : Spec.MovesAll P.Az) {CT : ℝ} (hC : 0 < CT) (hQ : 0 < Q)
    {T : ℝ} {cin : ℝ → Fin (p + 1) → ℝ} (hc : ContinuousOn cin (Icc 0 T)) (hs : ∀ t ∈ Icc 0 T, ∑ i, cin t i = CT) {x y : ℝ → ColState r p z}
    (hy : Spec.Solves colComp (fun t u => m.rhs P tH (cin t) u) 0 T y) (hx : Spec.Solves colComp (fun t u => m.rhs P tH (cin t) u) 0 T x)
    (h0 : x 0 = y 0) (hu : Spec.Totals CT Q (y 0)) : ∀ t ∈ Icc 0 T, x t = y t := by
  intro t ht
  refine (c209_unique m P tH hc hy hx h0.symm (fun s hs' => ?_) t ht).symm
  have hst := totals_stay_var h hA hC hQ hs hy hu s ⟨hs'.1, hs'.2.le⟩
  have hdv : ¬ ∃ i, P.val i = 2 := fun ⟨i, hi⟩ => h.single i hi
  have hpore := h.pore
  cases m
  · intro w
    unfold Spec.EqRegular
    rw [if_neg hdv]
    intro i
    simp only [h.alike, div_one, one_mul]
    rw [← Fin.succ_last, hst.beads]
    exact hQ.ne'
  · intro k w
    unfold Spec.EqRegular
    rw [if_neg hdv]
    intro i
    simp only [h.alike, div_one, one_mul]
    rw [← Finset.sum_div, hst.beads]
    exact div_ne_zero hQ.ne' (by have := (hpore rfl).2.1; linarith)

end

/-- Specification: the axial operators of `solve`: one element with any number of Legendre nodes, or, in element mode, any number of elements
of three points (hsdmix.py:364-370). -/
inductive Spec.AxialGrid : (z : ℕ) → (Fin (z + 1) → Fin (z + 1) → ℝ) → Prop
  | single {m : ℕ} {leg : Fin m → ℝ} (h : Spec.ShJacobiRoots m 1 1 leg) : Spec.AxialGrid (m + 1) (aMat (axialNodes leg))
  | elements {leg : Fin 1 → ℝ} (h : Spec.ShJacobiRoots 1 1 1 leg) (K : ℕ) :
      Spec.AxialGrid ((K + 1) * 2) (fun w w' => advOp (K + 1) 3 (arr2 (aMat (axialNodes leg))) w w')

theorem axial_form {z : ℕ} {A : Fin (z + 1) → Fin (z + 1) → ℝ} (h : Spec.AxialGrid z A) : ∃ G, AxialForm A G := by
  cases h with
  | single h => exact (axialForm_legendre h).imp fun _ hG => hG.1
  | elements h K => exact (axialForm_elements h K).imp fun _ hG => hG.1

theorem axial_moves {z : ℕ} {A : Fin (z + 1) → Fin (z + 1) → ℝ} (h : Spec.AxialGrid z A) : Spec.MovesAll A := by
  cases h with
  | single h => exact c206_single (axialNodes_inj h.1 h.2.1)
  | elements h K =>
    refine c206_array (M := 2) (Nat.succ_pos K) (by norm_num) ?_
    rw [half_nodes h]
    exact half_strict

theorem axial_pos {z : ℕ} {A : Fin (z + 1) → Fin (z + 1) → ℝ} (h : Spec.AxialGrid z A) : 1 ≤ z := by
  cases h <;> omega

theorem axial_mean {z : ℕ} {A : Fin (z + 1) → Fin (z + 1) → ℝ} (h : Spec.AxialGrid z A) (hM : 2 ≤ z) :
    ∃ g : Fin (z + 1) → ℝ, g 0 = 0 ∧ ∑ w, g w = 1 ∧ Spec.Telescopes A g := by
  cases h with
  | single h =>
    obtain ⟨g, hg, ht⟩ := c155_weights_single (by omega) h
    exact ⟨g, hg.inlet, hg.sum, ht⟩
  | elements h K =>
    obtain ⟨g, hg, ht⟩ := c155_weights le_rfl h (Nat.succ_pos K)
    exact ⟨g, hg.inlet, hg.sum, ht⟩

/-- Both kinds exist, for every number of inner nodes and of elements. -/
example (m K : ℕ) : (∃ A, Spec.AxialGrid (m + 1) A) ∧ ∃ A, Spec.AxialGrid ((K + 1) * 2) A :=
  ⟨⟨_, .single (legendre_exists m).choose_spec.1⟩, ⟨_, .elements (legendre_exists 1).choose_spec.1 K⟩⟩

section
variable {r p z : ℕ} {m : ColModel} {P : ColParams r p z} {jac : Fin r → ℝ} {tH : ℝ} {cin : Fin (p + 1) → ℝ} {Q : ℝ}

/-- C257. Such a column forgets its start: under any influent of a constant total, whatever its course, two runs approach each other at
least as `C * exp (-(ω * t))`, with constants that depend on the column and the totals only. -/
theorem c257_forgets (h : Spec.PlainColumn m P jac tH) (hz : Spec.AxialGrid z P.Az)
    {CT : ℝ} (hC : 0 < CT) (hQ : 0 < Q) : ∃ C ω : ℝ, 0 < C ∧ 0 < ω ∧
      ∀ (ε T : ℝ) (cin : ℝ → Fin (p + 1) → ℝ) (y y' : ℝ → ColState r p z),
      (∀ t ∈ Icc 0 T, ∑ i, cin t i = CT) → Spec.Solves colComp (fun t u => m.rhs P tH (cin t) u) 0 T y →
      Spec.Solves colComp (fun t u => m.rhs P tH (cin t) u) 0 T y' → Spec.Totals CT Q (y 0) → Spec.Totals CT Q (y' 0) →
      Spec.ColNear ε (y 0) (y' 0) → ∀ t ∈ Icc 0 T, Spec.ColNear (C * Real.exp (-(ω * t)) * ε) (y t) (y' t) := by
  obtain ⟨G, hG⟩ := axial_form hz
  exact plain_forgets h (axial_moves hz) hG hC hQ

/-- C257. There is a run from every such start and under every such influent, for all time, and exactly one. -/
theorem c257_run (h : Spec.PlainColumn m P jac tH) (hz : Spec.AxialGrid z P.Az)
    {CT : ℝ} (hC : 0 < CT) (hQ : 0 < Q) {cin : ℝ → Fin (p + 1) → ℝ} (hc : Continuous cin) (hs : ∀ t, ∑ i, cin t i = CT)
    {u : ColState r p z} (hu : Spec.Totals CT Q u) : ∃ y : ℝ → ColState r p z, y 0 = u ∧
      (∀ T, Spec.Solves colComp (fun t u => m.rhs P tH (cin t) u) 0 T y) ∧
      ∀ T x, Spec.Solves colComp (fun t u => m.rhs P tH (cin t) u) 0 T x → x 0 = u → ∀ t ∈ Icc 0 T, x t = y t := by
  have hA := axial_moves hz
  obtain ⟨y, hy0, hy⟩ := plain_run_var h hA hC hQ hc hs hu
  exact ⟨y, hy0, hy, fun T x hx hx0 => plain_unique h hA hC hQ hc.continuousOn (fun t _ => hs t) (hy T) hx (by rw [hy0, hx0])
    (by rw [hy0]; exact hu)⟩

/-- C255. Every run of such a column under a constant influent tends to the exhausted column: with constants of the column alone, the
largest excess is at most `C * exp (-(ω * t))` times the one at the start. Any numbers of radial and axial nodes. -/
theorem c255_settles (h : Spec.PlainColumn m P jac tH) (hz : Spec.AxialGrid z P.Az)
    (hC : 0 < ∑ i, cin i) (hQ : 0 < Q) : ∃ C ω : ℝ, 0 < C ∧ 0 < ω ∧ ∀ (ε : ℝ) (T : ℝ) (y : ℝ → ColState r p z),
      Spec.Solves colComp (fun _ u => m.rhs P tH cin u) 0 T y → Spec.Totals (∑ i, cin i) Q (y 0) → Spec.Within cin Q ε (y 0) →
      ∀ t ∈ Icc 0 T, Spec.Within cin Q (C * Real.exp (-(ω * t)) * ε) (y t) := by
  obtain ⟨G, hG⟩ := axial_form hz
  exact plain_settles h (axial_moves hz) hG hC hQ

/-- C255. From the start of the code there is exactly one run, for all time, and it tends to the exhausted column: the effluent to the
influent, every bead to the loading in equilibrium with it. -/
theorem c255_start (h : Spec.PlainColumn m P jac tH) (hz : Spec.AxialGrid z P.Az)
    (hC : 0 < ∑ i, cin i) (hQ : 0 < Q) : ∃ y : ℝ → ColState r p z, y 0 = colInit Q cin none ∧
      (∀ T, Spec.Solves colComp (fun _ u => m.rhs P tH cin u) 0 T y) ∧
      (∀ T x, Spec.Solves colComp (fun _ u => m.rhs P tH cin u) 0 T x → x 0 = colInit Q cin none → ∀ t ∈ Icc 0 T, x t = y t) ∧
      (∀ i w, w ≠ 0 → Filter.Tendsto (fun t => y t 0 i w) Filter.atTop (nhds (cin i))) ∧
      ∀ (k : Fin (r + 1)) i w, Filter.Tendsto (fun t => y t k.succ i w) Filter.atTop (nhds (Q * cin i / ∑ j, cin j)) := by
  have hA := axial_moves hz
  have ht : Spec.Totals (∑ i, cin i) Q (colInit Q cin none : ColState r p z) :=
    ⟨fun w _ => (c33_column Q cin).2.1 w, (c33_column Q cin).1⟩
  obtain ⟨y, hy0, hy⟩ := plain_run_var h hA hC hQ (cin := fun _ => cin) continuous_const (fun _ => rfl) ht
  obtain ⟨C, ω, hCp, hω, hs⟩ := c255_settles h hz hC hQ
  obtain ⟨ε, hε⟩ : ∃ ε, Spec.Within cin Q ε (y 0) := by
    refine ⟨∑ i, ∑ w, |y 0 0 i w - cin i| + ∑ k : Fin (r + 1), ∑ i, ∑ w, |y 0 k.succ i w - Q * cin i / ∑ j, cin j|, fun i w _ => ?_, fun k i w => ?_⟩
    · have h1 := Finset.single_le_sum (f := fun w => |y 0 0 i w - cin i|) (fun w _ => abs_nonneg _) (Finset.mem_univ w)
      have h2 := Finset.single_le_sum (f := fun i => ∑ w, |y 0 0 i w - cin i|) (fun i _ => Finset.sum_nonneg fun w _ => abs_nonneg _)
        (Finset.mem_univ i)
      have h3 : 0 ≤ ∑ k : Fin (r + 1), ∑ i, ∑ w, |y 0 k.succ i w - Q * cin i / ∑ j, cin j| :=
        Finset.sum_nonneg fun k _ => Finset.sum_nonneg fun i _ => Finset.sum_nonneg fun w _ => abs_nonneg _
      linarith
    · have h1 := Finset.single_le_sum (f := fun w => |y 0 k.succ i w - Q * cin i / ∑ j, cin j|) (fun w _ => abs_nonneg _) (Finset.mem_univ w)
      have h2 := Finset.single_le_sum (f := fun i => ∑ w, |y 0 k.succ i w - Q * cin i / ∑ j, cin j|)
        (fun i _ => Finset.sum_nonneg fun w _ => abs_nonneg _) (Finset.mem_univ i)
      have h3 := Finset.single_le_sum (f := fun k : Fin (r + 1) => ∑ i, ∑ w, |y 0 k.succ i w - Q * cin i / ∑ j, cin j|)
        (fun k _ => Finset.sum_nonneg fun i _ => Finset.sum_nonneg fun w _ => abs_nonneg _) (Finset.mem_univ k)
      have h4 : 0 ≤ ∑ i, ∑ w, |y 0 0 i w - cin i| := Finset.sum_nonneg fun i _ => Finset.sum_nonneg fun w _ => abs_nonneg _
      linarith
  have hlim : Filter.Tendsto (fun t => C * Real.exp (-(ω * t)) * ε) Filter.atTop (nhds 0) := by
    have h1 : Filter.Tendsto (fun t => ω * t) Filter.atTop Filter.atTop := Filter.tendsto_id.const_mul_atTop hω
    have h2 := Real.tendsto_exp_neg_atTop_nhds_zero.comp h1
    have h3 := (h2.const_mul C).mul_const ε
    simpa using h3
  have hW : ∀ t, 0 ≤ t → Spec.Within cin Q (C * Real.exp (-(ω * t)) * ε) (y t) := fun t h0 =>
    hs ε t y (hy t) (by rw [hy0]; exact ht) hε t ⟨h0, le_rfl⟩
  have key : ∀ (f : ℝ → ℝ) (c : ℝ), (∀ t, 0 ≤ t → |f t - c| ≤ C * Real.exp (-(ω * t)) * ε) → Filter.Tendsto f Filter.atTop (nhds c) := by
    intro f c hf
    rw [tendsto_iff_dist_tendsto_zero]
    refine squeeze_zero' (Filter.Eventually.of_forall fun t => dist_nonneg) ?_ hlim
    filter_upwards [Filter.eventually_ge_atTop 0] with t h0
    rw [Real.dist_eq]
    exact hf t h0
  refine ⟨y, hy0, hy, fun T x hx hx0 t htT => ?_, fun i w hw => key _ _ fun t h0 => (hW t h0).1 i w hw,
    fun k i w => key _ _ fun t h0 => (hW t h0).2 k i w⟩
  exact plain_unique h hA hC hQ (cin := fun _ => cin) continuousOn_const (fun _ _ => rfl) (hy T) hx (by rw [hy0, hx0]) (by rw [hy0]; exact ht)
    t htT

/-- C256. The mean breakthrough time is the time scale `t_half` of the code: in units of it, the area between influent and effluent over
all time is the influent itself for every ion not on the resin at the start, and minus what the others bring for the presaturant. -/
theorem c256_mean (h : Spec.PlainColumn m P jac (tHalf P cin)) (hM : 2 ≤ z) (hz : Spec.AxialGrid z P.Az) (hC : 0 < ∑ i, cin i) (hQ : 0 < P.Q) {y : ℝ → ColState r p z}
    (h0 : y 0 = colInit P.Q cin none) (hy : ∀ T, Spec.Solves colComp (fun _ u => m.rhs P (tHalf P cin) cin u) 0 T y) (i : Fin (p + 1)) :
    Filter.Tendsto (fun T => ∫ t in (0 : ℝ)..T, (cin i - y t 0 i (Fin.last z))) Filter.atTop
      (nhds (if i = 0 then cin 0 - ∑ j, cin j else cin i)) := by
  obtain ⟨x, hx0, -, hu, hlq, hbd⟩ := c255_start h hz hC hQ
  have hxy : ∀ t, 0 ≤ t → y t = x t := fun t ht => hu t y (hy t) h0 t ⟨ht, le_rfl⟩
  obtain ⟨g, hgi, hsum, hgt⟩ := axial_mean hz hM
  have hW := (h.grid.wpos (Fin.last r)).ne'
  have hE := h.bed.1.ne'
  have hLp := h.flow.2.ne'
  have hv := h.flow.1.ne'
  have htH := h.time.ne'
  have hW3 : ∑ k, P.Wr k = 1 / 3 := by
    rw [h.grid.weights]
    exact (c17_positive_sum (Nat.succ_pos r) (radialNodes_inj h.grid.zeros.1 (fun i => (h.grid.zeros.2.1 i).2))
      (radialNodes_pos (fun i => (h.grid.zeros.2.1 i).1)) (by norm_num : (0:ℝ) < 3)).2
  have hbal : ∀ T, 0 ≤ T → ∫ t in (0 : ℝ)..T, (cin i - y t 0 i (Fin.last z)) =
      P.L / (P.v * tHalf P cin) * (Spec.colContent P.EBED P.Wr g (x T) i - Spec.colContent P.EBED P.Wr g (x 0) i) := by
    intro T hT
    have hco : IntervalIntegrable (fun t => y t 0 i (Fin.last z)) MeasureTheory.volume 0 T := by
      apply ContinuousOn.intervalIntegrable
      rw [Set.uIcc_of_le hT]
      exact solves_continuousOn (hy T) (0, i, Fin.last z)
    have := c155_solutions m P (by omega) (tHalf P cin) (fun _ => cin) hW hE hgi hgt i hT (hy T)
      intervalIntegrable_const
    rw [hxy T hT, hxy 0 le_rfl] at this
    rw [this, intervalIntegral.integral_sub intervalIntegrable_const hco]
    field_simp
  have hlim : Filter.Tendsto (fun T => Spec.colContent P.EBED P.Wr g (x T) i) Filter.atTop
      (nhds (∑ w, g w * (P.EBED * cin i + (1 - P.EBED) * (3 * ∑ k : Fin (r + 1), P.Wr k * (P.Q * cin i / ∑ j, cin j))))) := by
    unfold Spec.colContent
    refine tendsto_finsetSum _ fun w _ => ?_
    by_cases hw : w = 0
    · rw [hw, hgi]
      simp only [zero_mul]
      exact tendsto_const_nhds
    · refine ((((hlq i w hw).const_mul P.EBED).add ?_).const_mul (g w))
      refine ((tendsto_finsetSum _ fun k _ => (hbd k i w).const_mul (P.Wr k)).const_mul 3).const_mul _
  have hend : ∑ w, g w * (P.EBED * cin i + (1 - P.EBED) * (3 * ∑ k : Fin (r + 1), P.Wr k * (P.Q * cin i / ∑ j, cin j))) =
      (P.EBED + (1 - P.EBED) * P.Q / ∑ j, cin j) * cin i := by
    rw [← Finset.sum_mul, hsum, ← Finset.sum_mul, hW3]
    ring
  have hstart : Spec.colContent P.EBED P.Wr g (x 0) i =
      (P.EBED + (1 - P.EBED) * P.Q / ∑ j, cin j) * (if i = 0 then ∑ j, cin j else 0) := by
    rw [hx0]
    unfold Spec.colContent
    have : ∀ w, g w * (P.EBED * (colInit P.Q cin none : ColState r p z) 0 i w +
        (1 - P.EBED) * (3 * ∑ k : Fin (r + 1), P.Wr k * (colInit P.Q cin none : ColState r p z) k.succ i w)) =
        g w * ((P.EBED + (1 - P.EBED) * P.Q / ∑ j, cin j) * (if i = 0 then ∑ j, cin j else 0)) := by
      intro w
      by_cases hw : w = 0
      · rw [hw, hgi]; ring
      · simp only [colInit, Fin.succ_ne_zero, if_true, if_false, if_neg hw]
        rw [← Finset.sum_mul, hW3]
        split
        · field_simp
        · ring
    simp only [this]
    rw [← Finset.sum_mul, hsum, one_mul]
  rw [hend] at hlim
  have hfin := (hlim.sub_const (Spec.colContent P.EBED P.Wr g (x 0) i)).const_mul (P.L / (P.v * tHalf P cin))
  have hkey : P.L / (P.v * tHalf P cin) * ((P.EBED + (1 - P.EBED) * P.Q / ∑ j, cin j) * cin i - Spec.colContent P.EBED P.Wr g (x 0) i) =
      if i = 0 then cin 0 - ∑ j, cin j else cin i := by
    have ht : P.L * (P.EBED + (1 - P.EBED) * P.Q / ∑ j, cin j) = P.v * tHalf P cin := by
      unfold tHalf
      simp only
      field_simp
    have e : P.L / (P.v * tHalf P cin) * ((P.EBED + (1 - P.EBED) * P.Q / ∑ j, cin j) * cin i - Spec.colContent P.EBED P.Wr g (x 0) i) =
        P.L * (P.EBED + (1 - P.EBED) * P.Q / ∑ j, cin j) / (P.v * tHalf P cin) * (cin i - (if i = 0 then ∑ j, cin j else 0)) := by
      rw [hstart]; ring
    rw [e, ht, div_self (mul_ne_zero hv htH), one_mul]
    split
    · rename_i hi; rw [hi]
    · ring
  rw [hkey] at hfin
  refine hfin.congr' ?_
  filter_upwards [Filter.eventually_ge_atTop 0] with T hT
  rw [hbal T hT]

/-- What two runs hold differs less and less when their influents agree from some time on. -/
theorem plain_merge (h : Spec.PlainColumn m P jac tH) (hz : Spec.AxialGrid z P.Az) {CT : ℝ} (hC : 0 < CT) (hQ : 0 < Q) {cin cin' : ℝ → Fin (p + 1) → ℝ}
    (hs : ∀ t, ∑ i, cin t i = CT) (hs' : ∀ t, ∑ i, cin' t i = CT) {T0 : ℝ} (hT : 0 ≤ T0) (hag : ∀ t, T0 ≤ t → cin' t = cin t)
    {y y' : ℝ → ColState r p z} (hy : ∀ T, Spec.Solves colComp (fun t u => m.rhs P tH (cin t) u) 0 T y)
    (hy' : ∀ T, Spec.Solves colComp (fun t u => m.rhs P tH (cin' t) u) 0 T y') (h0 : Spec.Totals CT Q (y 0)) (h0' : Spec.Totals CT Q (y' 0)) :
    ∃ K ω : ℝ, 0 < ω ∧ ∀ t, 0 ≤ t → Spec.ColNear (K * Real.exp (-(ω * t))) (y (T0 + t)) (y' (T0 + t)) := by
  have hA := axial_moves hz
  obtain ⟨C, ω, hCp, hω, hx⟩ := c257_forgets (Q := Q) h hz hC hQ
  obtain ⟨ε, hε⟩ : ∃ ε, ∀ a i w, |y T0 a i w - y' T0 a i w| ≤ ε := by
    obtain ⟨b, hb⟩ := Finite.exists_max fun a : Fin (r + 2) × Fin (p + 1) × Fin (z + 1) => |y T0 a.1 a.2.1 a.2.2 - y' T0 a.1 a.2.1 a.2.2|
    exact ⟨_, fun a i w => hb (a, i, w)⟩
  refine ⟨C * ε, ω, hω, fun t ht => ?_⟩
  have hshift : ∀ {x : ℝ → ColState r p z} {c : ℝ → Fin (p + 1) → ℝ}, (∀ t, T0 ≤ t → c t = cin t) →
      (∀ T, Spec.Solves colComp (fun t u => m.rhs P tH (c t) u) 0 T x) →
      Spec.Solves colComp (fun t u => m.rhs P tH (cin (T0 + t)) u) 0 t (fun t => x (T0 + t)) := by
    intro x c hcc hxs s hs a
    have h1 := hxs (T0 + t) (T0 + s) ⟨by linarith [hs.1], by linarith [hs.2]⟩ a
    beta_reduce at h1
    rw [hcc (T0 + s) (by linarith [hs.1])] at h1
    have h2 := h1.scomp s ((hasDerivAt_id s).const_add T0).hasDerivWithinAt (s := Icc 0 t)
      (fun τ hτ => ⟨by show 0 ≤ T0 + τ; linarith [hτ.1], by show T0 + τ ≤ T0 + t; linarith [hτ.2]⟩)
    rw [one_smul] at h2
    exact h2
  have := hx ε t (fun t => cin (T0 + t)) (fun t => y (T0 + t)) (fun t => y' (T0 + t)) (fun s _ => hs _)
    (hshift (fun _ _ => rfl) hy) (hshift hag hy')
    (by rw [add_zero]; exact totals_stay_var h hA hC hQ (fun t _ => hs t) (hy T0) h0 T0 ⟨hT, le_rfl⟩)
    (by rw [add_zero]; exact totals_stay_var h hA hC hQ (fun t _ => hs' t) (hy' T0) h0' T0 ⟨hT, le_rfl⟩)
    (by rw [add_zero]; exact ⟨fun i w _ => hε 0 i w, fun k i w => hε k.succ i w⟩) t ⟨ht, le_rfl⟩
  rwa [mul_right_comm] at this

/-- C258. Nothing stays: of two runs from one start whose influents differ for a while only, the effluents together differ by exactly
what the influents did, ion by ion. -/
theorem c258_pulse (h : Spec.PlainColumn m P jac tH) (hM : 2 ≤ z) (hz : Spec.AxialGrid z P.Az) {CT : ℝ} (hC : 0 < CT) (hQ : 0 < Q) {cin cin' : ℝ → Fin (p + 1) → ℝ}
    (hc : Continuous cin) (hc' : Continuous cin') (hs : ∀ t, ∑ i, cin t i = CT) (hs' : ∀ t, ∑ i, cin' t i = CT)
    {T0 : ℝ} (hT : 0 ≤ T0) (hag : ∀ t, T0 ≤ t → cin' t = cin t)
    {y y' : ℝ → ColState r p z} (hy : ∀ T, Spec.Solves colComp (fun t u => m.rhs P tH (cin t) u) 0 T y)
    (hy' : ∀ T, Spec.Solves colComp (fun t u => m.rhs P tH (cin' t) u) 0 T y') (h0 : Spec.Totals CT Q (y 0)) (h00 : y' 0 = y 0)
    (i : Fin (p + 1)) :
    Filter.Tendsto (fun T => ∫ t in (0 : ℝ)..T, (y' t 0 i (Fin.last z) - y t 0 i (Fin.last z))) Filter.atTop
      (nhds (∫ t in (0 : ℝ)..T0, (cin' t i - cin t i))) := by
  obtain ⟨K, ω, hω, hn⟩ := plain_merge h hz hC hQ hs hs' hT hag hy hy' h0 (by rw [h00]; exact h0)
  obtain ⟨g, hgi, hsum, hgt⟩ := axial_mean hz hM
  have hW := (h.grid.wpos (Fin.last r)).ne'
  have hE := h.bed.1.ne'
  have hLp := h.flow.2.ne'
  have hv := h.flow.1.ne'
  have htH := h.time.ne'
  have hci : Continuous fun t => cin t i := (continuous_apply i).comp hc
  have hci' : Continuous fun t => cin' t i := (continuous_apply i).comp hc'
  have hlim : Filter.Tendsto (fun t => K * Real.exp (-(ω * (t - T0)))) Filter.atTop (nhds 0) := by
    have h1 : Filter.Tendsto (fun t => ω * (t - T0)) Filter.atTop Filter.atTop :=
      (Filter.tendsto_atTop_add_const_right _ (-T0) Filter.tendsto_id).const_mul_atTop hω
    have h3 := (Real.tendsto_exp_neg_atTop_nhds_zero.comp h1).const_mul K
    simpa using h3
  have hd : ∀ a w, w ≠ 0 → Filter.Tendsto (fun t => y' t a i w - y t a i w) Filter.atTop (nhds 0) := by
    intro a w hw
    refine squeeze_zero_norm' ?_ hlim
    filter_upwards [Filter.eventually_ge_atTop T0] with t ht
    have := hn (t - T0) (by linarith)
    rw [show T0 + (t - T0) = t by ring] at this
    rw [Real.norm_eq_abs, abs_sub_comm]
    refine Fin.cases ?_ (fun k => ?_) a
    · exact this.1 i w hw
    · exact this.2 k i w
  have hcont : Filter.Tendsto (fun T => Spec.colContent P.EBED P.Wr g (y' T) i - Spec.colContent P.EBED P.Wr g (y T) i) Filter.atTop (nhds 0) := by
    have e : ∀ T, Spec.colContent P.EBED P.Wr g (y' T) i - Spec.colContent P.EBED P.Wr g (y T) i =
        ∑ w, g w * (P.EBED * (y' T 0 i w - y T 0 i w) +
          (1 - P.EBED) * (3 * ∑ k : Fin (r + 1), P.Wr k * (y' T k.succ i w - y T k.succ i w))) := by
      intro T
      unfold Spec.colContent
      rw [← Finset.sum_sub_distrib]
      refine Finset.sum_congr rfl fun w _ => ?_
      simp only [mul_sub, Finset.sum_sub_distrib]
      ring
    simp only [e]
    have hz0 : (0 : ℝ) = ∑ _w : Fin (z + 1), (0 : ℝ) := Finset.sum_const_zero.symm
    rw [hz0]
    refine tendsto_finsetSum _ fun w _ => ?_
    by_cases hw : w = 0
    · rw [hw, hgi]
      simp only [zero_mul]
      exact tendsto_const_nhds
    · have h0 : Filter.Tendsto (fun T => ∑ k : Fin (r + 1), P.Wr k * (y' T k.succ i w - y T k.succ i w)) Filter.atTop
          (nhds (∑ k : Fin (r + 1), P.Wr k * 0)) := tendsto_finsetSum _ fun k _ => (hd k.succ w hw).const_mul (P.Wr k)
      have h2 := ((((hd 0 w hw).const_mul P.EBED).add ((h0.const_mul 3).const_mul (1 - P.EBED))).const_mul (g w))
      simpa using h2
  have hbal : ∀ T, T0 ≤ T → ∫ t in (0 : ℝ)..T, (y' t 0 i (Fin.last z) - y t 0 i (Fin.last z)) =
      (∫ t in (0 : ℝ)..T0, (cin' t i - cin t i)) -
        P.L / (P.v * tH) * (Spec.colContent P.EBED P.Wr g (y' T) i - Spec.colContent P.EBED P.Wr g (y T) i) := by
    intro T hTT
    have hT1 : 0 ≤ T := hT.trans hTT
    have hco : ∀ {x : ℝ → ColState r p z} {c : ℝ → Fin (p + 1) → ℝ}, Spec.Solves colComp (fun t u => m.rhs P tH (c t) u) 0 T x →
        IntervalIntegrable (fun t => x t 0 i (Fin.last z)) MeasureTheory.volume 0 T := by
      intro x c hx
      apply ContinuousOn.intervalIntegrable
      rw [Set.uIcc_of_le hT1]
      exact solves_continuousOn hx (0, i, Fin.last z)
    have b1 := c155_solutions m P (by omega) tH cin hW hE hgi hgt i hT1 (hy T) (hci.intervalIntegrable _ _)
    have b2 := c155_solutions m P (by omega) tH cin' hW hE hgi hgt i hT1 (hy' T) (hci'.intervalIntegrable _ _)
    rw [h00] at b2
    rw [intervalIntegral.integral_sub (hco (hy' T)) (hco (hy T))]
    have e1 : ∫ t in (0 : ℝ)..T0, (cin' t i - cin t i) = (∫ t in (0 : ℝ)..T, cin' t i) - ∫ t in (0 : ℝ)..T, cin t i := by
      have hdc : Continuous fun t => cin' t i - cin t i := hci'.sub hci
      rw [← intervalIntegral.integral_sub (hci'.intervalIntegrable _ _) (hci.intervalIntegrable _ _),
        ← intervalIntegral.integral_add_adjacent_intervals (hdc.intervalIntegrable 0 T0) (hdc.intervalIntegrable T0 T)]
      have : ∫ t in T0..T, (cin' t i - cin t i) = 0 := by
        rw [intervalIntegral.integral_congr (g := fun _ => (0 : ℝ))]
        · simp
        · intro t ht
          rw [Set.uIcc_of_le hTT] at ht
          simp only [hag t ht.1, sub_self]
      rw [this, add_zero]
    rw [e1]
    have b3 : Spec.colContent P.EBED P.Wr g (y' T) i - Spec.colContent P.EBED P.Wr g (y T) i = P.v / P.L * tH *
        (((∫ t in (0 : ℝ)..T, cin' t i) - ∫ t in (0 : ℝ)..T, cin t i) - ((∫ t in (0 : ℝ)..T, y' t 0 i (Fin.last z)) -
          ∫ t in (0 : ℝ)..T, y t 0 i (Fin.last z))) := by linarith
    rw [b3]
    field_simp
    ring
  have hfin := (hcont.const_mul (P.L / (P.v * tH))).const_sub (∫ t in (0 : ℝ)..T0, (cin' t i - cin t i))
  rw [mul_zero, sub_zero] at hfin
  refine hfin.congr' ?_
  filter_upwards [Filter.eventually_ge_atTop T0] with T hTT
  rw [hbal T hTT]

end

/-- A column as in C255, for both models, any numbers of nodes and a water with three ions. -/
example (m : ColModel) (r z : ℕ) (A : Fin (z + 1) → Fin (z + 1) → ℝ) (hA : Spec.AxialGrid z A) : ∃ (P : ColParams r 2 z) (jac : Fin r → ℝ), Spec.PlainColumn m P jac 1 ∧ P.Az = A ∧ 0 < P.Q ∧ 0 < ∑ i, (![1, 2, 3] : Fin 3 → ℝ) i ∧
    ∃ y : ℝ → ColState r 2 z, y 0 = colInit P.Q ![1, 2, 3] none ∧
      Filter.Tendsto (fun t => y t 0 2 (Fin.last z)) Filter.atTop (nhds 3) ∧ y 0 0 2 (Fin.last z) = 0 := by
  obtain ⟨jac, B, W, g⟩ := beadGrid_exists r
  have hlast : Fin.last z ≠ 0 := fun e => by have := congrArg Fin.val e; have := axial_pos hA; simp at *; omega
  let P : ColParams r 2 z := ⟨1 / 2, 1, 1, 1, 5, 1 / 2, fun _ => 1, fun _ => 1, fun _ => 2, fun _ => 1, fun _ => 1, A, B, W⟩
  have hP : Spec.PlainColumn m P jac 1 := ⟨g, by show (0 : ℝ) < 1 / 2 ∧ (1 / 2 : ℝ) < 1; norm_num, ⟨one_pos, one_pos⟩, one_pos, one_pos,
    fun _ _ => ⟨one_pos, one_pos⟩, fun _ => ⟨by show (0 : ℝ) ≤ 1 / 2; norm_num, by show (1 / 2 : ℝ) < 1; norm_num,
      fun _ _ => by show (1 : ℝ) ≤ 2; norm_num⟩, fun _ => rfl, fun _ => by show (1 : ℕ) ≠ 2; decide⟩
  have hs : 0 < ∑ i, (![1, 2, 3] : Fin 3 → ℝ) i := by simp [Fin.sum_univ_three]; norm_num
  have hQ : 0 < P.Q := by show (0 : ℝ) < 5; norm_num
  obtain ⟨y, h0, -, -, hy, -⟩ := c255_start hP hA hs hQ
  refine ⟨P, jac, hP, rfl, hQ, hs, y, h0, hy 2 _ hlast, ?_⟩
  rw [h0]
  simp [colInit, hlast]

/-- And as in C256, with the time scale of the code. -/
example (m : ColModel) (r z : ℕ) (hM : 2 ≤ z) (A : Fin (z + 1) → Fin (z + 1) → ℝ) (hA : Spec.AxialGrid z A) : ∃ (P : ColParams r 2 z) (y : ℝ → ColState r 2 z),
    (∀ T, Spec.Solves colComp (fun _ u => m.rhs P (tHalf P ![1, 2, 3]) ![1, 2, 3] u) 0 T y) ∧ y 0 = colInit P.Q ![1, 2, 3] none ∧
    Filter.Tendsto (fun T => ∫ t in (0 : ℝ)..T, (3 - y t 0 2 (Fin.last z))) Filter.atTop (nhds 3) := by
  obtain ⟨jac, B, W, g⟩ := beadGrid_exists r
  have hlast : Fin.last z ≠ 0 := fun e => by have := congrArg Fin.val e; have := axial_pos hA; simp at *; omega
  let P : ColParams r 2 z := ⟨1 / 2, 1, 1, 1, 5, 1 / 2, fun _ => 1, fun _ => 1, fun _ => 2, fun _ => 1, fun _ => 1, A, B, W⟩
  have hs : ∑ i, (![1, 2, 3] : Fin 3 → ℝ) i = 6 := by simp [Fin.sum_univ_three]; norm_num
  have ht : 0 < tHalf P ![1, 2, 3] := by
    unfold tHalf
    rw [hs]
    show (0 : ℝ) < 1 * (1 / 2) / 1 * (1 + (1 - 1 / 2) / (1 / 2) * 5 / 6)
    norm_num
  have hP : Spec.PlainColumn m P jac (tHalf P ![1, 2, 3]) := ⟨g, by show (0 : ℝ) < 1 / 2 ∧ (1 / 2 : ℝ) < 1; norm_num, ⟨one_pos, one_pos⟩,
    one_pos, ht, fun _ _ => ⟨one_pos, one_pos⟩, fun _ => ⟨by show (0 : ℝ) ≤ 1 / 2; norm_num, by show (1 / 2 : ℝ) < 1; norm_num,
      fun _ _ => by show (1 : ℝ) ≤ 2; norm_num⟩, fun _ => rfl, fun _ => by show (1 : ℕ) ≠ 2; decide⟩
  have hs' : 0 < ∑ i, (![1, 2, 3] : Fin 3 → ℝ) i := by rw [hs]; norm_num
  have hQ : 0 < P.Q := by show (0 : ℝ) < 5; norm_num
  obtain ⟨y, h0, hy, -⟩ := c255_start hP hA hs' hQ
  exact ⟨P, y, hy, h0, c256_mean hP hM hA hs' hQ h0 hy 2⟩

/-- And as in C257: an influent that swings, and two starts that differ. -/
example (m : ColModel) (r z : ℕ) (A : Fin (z + 1) → Fin (z + 1) → ℝ) (hA : Spec.AxialGrid z A) : ∃ (P : ColParams r 2 z) (cin : ℝ → Fin 3 → ℝ) (y y' : ℝ → ColState r 2 z),
    (∀ t, cin t = ![1, 2 + Real.sin t, 3 - Real.sin t]) ∧ (∀ T, Spec.Solves colComp (fun t u => m.rhs P 1 (cin t) u) 0 T y) ∧
    (∀ T, Spec.Solves colComp (fun t u => m.rhs P 1 (cin t) u) 0 T y') ∧ y 0 0 2 (Fin.last z) = 0 ∧
    y' 0 0 2 (Fin.last z) = 3 ∧
    Filter.Tendsto (fun t => y t 0 2 (Fin.last z) - y' t 0 2 (Fin.last z)) Filter.atTop (nhds 0) := by
  obtain ⟨jac, B, W, g⟩ := beadGrid_exists r
  have hlast : Fin.last z ≠ 0 := fun e => by have := congrArg Fin.val e; have := axial_pos hA; simp at *; omega
  let P : ColParams r 2 z := ⟨1 / 2, 1, 1, 1, 5, 1 / 2, fun _ => 1, fun _ => 1, fun _ => 2, fun _ => 1, fun _ => 1, A, B, W⟩
  have hP : Spec.PlainColumn m P jac 1 := ⟨g, by show (0 : ℝ) < 1 / 2 ∧ (1 / 2 : ℝ) < 1; norm_num, ⟨one_pos, one_pos⟩, one_pos, one_pos,
    fun _ _ => ⟨one_pos, one_pos⟩, fun _ => ⟨by show (0 : ℝ) ≤ 1 / 2; norm_num, by show (1 / 2 : ℝ) < 1; norm_num,
      fun _ _ => by show (1 : ℝ) ≤ 2; norm_num⟩, fun _ => rfl, fun _ => by show (1 : ℕ) ≠ 2; decide⟩
  have hs : ∑ i, (![1, 2, 3] : Fin 3 → ℝ) i = 6 := by simp [Fin.sum_univ_three]; norm_num
  have hQ : (0 : ℝ) < 5 := by norm_num
  have h6 : (0 : ℝ) < 6 := by norm_num
  let cin : ℝ → Fin 3 → ℝ := fun t => ![1, 2 + Real.sin t, 3 - Real.sin t]
  have hc : Continuous cin := by
    refine continuous_pi fun i => ?_
    fin_cases i
    · exact continuous_const
    · exact continuous_const.add Real.continuous_sin
    · exact continuous_const.sub Real.continuous_sin
  have hsum : ∀ t, ∑ i, cin t i = 6 := by
    intro t
    simp [cin, Fin.sum_univ_three]
    ring
  have hu : Spec.Totals 6 5 (colInit 5 ![1, 2, 3] none : ColState r 2 z) := by
    rw [← hs]
    exact ⟨fun w _ => (c33_column 5 ![1, 2, 3]).2.1 w, (c33_column 5 ![1, 2, 3]).1⟩
  have hu' : Spec.Totals 6 5 (Spec.exhausted ![1, 2, 3] 5 : ColState r 2 z) := by
    rw [← hs]
    exact exhausted_totals (by rw [hs]; exact h6)
  obtain ⟨y, hy0, hy, -⟩ := c257_run hP hA h6 hQ hc hsum hu
  obtain ⟨y', hy0', hy', -⟩ := c257_run hP hA h6 hQ hc hsum hu'
  obtain ⟨C, ω, hCp, hω, hx⟩ := c257_forgets hP hA h6 hQ
  obtain ⟨ε, hε⟩ : ∃ ε, ∀ a i w, |y 0 a i w - y' 0 a i w| ≤ ε := by
    obtain ⟨ε, hε⟩ := Finite.exists_max fun a : Fin (r + 2) × Fin 3 × Fin (z + 1) => |y 0 a.1 a.2.1 a.2.2 - y' 0 a.1 a.2.1 a.2.2|
    exact ⟨_, fun a i w => hε (a, i, w)⟩
  refine ⟨P, cin, y, y', fun _ => rfl, hy, hy', by rw [hy0]; simp [colInit, hlast], by rw [hy0']; simp [Spec.exhausted], ?_⟩
  have hlim : Filter.Tendsto (fun t => C * Real.exp (-(ω * t)) * ε) Filter.atTop (nhds 0) := by
    have h1 : Filter.Tendsto (fun t => ω * t) Filter.atTop Filter.atTop := Filter.tendsto_id.const_mul_atTop hω
    have h3 := ((Real.tendsto_exp_neg_atTop_nhds_zero.comp h1).const_mul C).mul_const ε
    simpa using h3
  refine squeeze_zero_norm' ?_ hlim
  filter_upwards [Filter.eventually_ge_atTop 0] with t h0
  exact (hx ε t cin y y' (fun s _ => hsum s) (hy t) (hy' t) (by rw [hy0]; exact hu) (by rw [hy0']; exact hu')
    ⟨fun i w _ => hε 0 i w, fun k i w => hε k.succ i w⟩ t ⟨h0, le_rfl⟩).1 2 _ hlast

/-- And as in C258: a pulse of one ion in exchange for another. -/
example (m : ColModel) (r z : ℕ) (hM : 2 ≤ z) (A : Fin (z + 1) → Fin (z + 1) → ℝ) (hA : Spec.AxialGrid z A) : ∃ (P : ColParams r 2 z) (cin' : ℝ → Fin 3 → ℝ) (y y' : ℝ → ColState r 2 z),
    (∀ t, cin' t = ![1, 2 + max 0 (1 - |t - 1|), 3 - max 0 (1 - |t - 1|)]) ∧
    (∀ T, Spec.Solves colComp (fun _ u => m.rhs P 1 ![1, 2, 3] u) 0 T y) ∧
    (∀ T, Spec.Solves colComp (fun t u => m.rhs P 1 (cin' t) u) 0 T y') ∧ y' 0 = y 0 ∧
    Filter.Tendsto (fun T => ∫ t in (0 : ℝ)..T, (y' t 0 1 (Fin.last z) - y t 0 1 (Fin.last z))) Filter.atTop
      (nhds (∫ t in (0 : ℝ)..2, max 0 (1 - |t - 1|))) := by
  obtain ⟨jac, B, W, g⟩ := beadGrid_exists r
  have hlast : Fin.last z ≠ 0 := fun e => by have := congrArg Fin.val e; have := axial_pos hA; simp at *; omega
  let P : ColParams r 2 z := ⟨1 / 2, 1, 1, 1, 5, 1 / 2, fun _ => 1, fun _ => 1, fun _ => 2, fun _ => 1, fun _ => 1, A, B, W⟩
  have hP : Spec.PlainColumn m P jac 1 := ⟨g, by show (0 : ℝ) < 1 / 2 ∧ (1 / 2 : ℝ) < 1; norm_num, ⟨one_pos, one_pos⟩, one_pos, one_pos,
    fun _ _ => ⟨one_pos, one_pos⟩, fun _ => ⟨by show (0 : ℝ) ≤ 1 / 2; norm_num, by show (1 / 2 : ℝ) < 1; norm_num,
      fun _ _ => by show (1 : ℝ) ≤ 2; norm_num⟩, fun _ => rfl, fun _ => by show (1 : ℕ) ≠ 2; decide⟩
  have hs : ∑ i, (![1, 2, 3] : Fin 3 → ℝ) i = 6 := by simp [Fin.sum_univ_three]; norm_num
  have hQ : (0 : ℝ) < 5 := by norm_num
  have h6 : (0 : ℝ) < 6 := by norm_num
  let cin' : ℝ → Fin 3 → ℝ := fun t => ![1, 2 + max 0 (1 - |t - 1|), 3 - max 0 (1 - |t - 1|)]
  have hb : Continuous fun t : ℝ => max 0 (1 - |t - 1|) := by fun_prop
  have hc : Continuous cin' := by
    refine continuous_pi fun i => ?_
    fin_cases i
    · exact continuous_const
    · exact continuous_const.add hb
    · exact continuous_const.sub hb
  have hsum : ∀ t, ∑ i, cin' t i = 6 := by
    intro t
    simp [cin', Fin.sum_univ_three]
    ring
  have hu : Spec.Totals 6 5 (colInit 5 ![1, 2, 3] none : ColState r 2 z) := by
    rw [← hs]
    exact ⟨fun w _ => (c33_column 5 ![1, 2, 3]).2.1 w, (c33_column 5 ![1, 2, 3]).1⟩
  obtain ⟨y, hy0, hy, -⟩ := c257_run (cin := fun _ => ![1, 2, 3]) hP hA h6 hQ continuous_const (fun _ => hs) hu
  obtain ⟨y', hy0', hy', -⟩ := c257_run hP hA h6 hQ hc hsum hu
  refine ⟨P, cin', y, y', fun _ => rfl, hy, hy', by rw [hy0, hy0'], ?_⟩
  have := c258_pulse (cin := fun _ => ![1, 2, 3]) (cin' := cin') hP hM hA h6 hQ continuous_const hc (fun _ => hs) hsum
    (T0 := 2) (by norm_num) (fun t ht => ?_) hy hy' (by rw [hy0]; exact hu) (by rw [hy0, hy0']) 1
  · have e : ∫ t in (0 : ℝ)..2, (cin' t 1 - (![1, 2, 3] : Fin 3 → ℝ) 1) = ∫ t in (0 : ℝ)..2, max 0 (1 - |t - 1|) := by
      congr 1
      funext t
      simp [cin']
    rw [← e]
    exact this
  · have : max 0 (1 - |t - 1|) = 0 := max_eq_left (by rw [abs_of_nonneg (by linarith)]; linarith)
    simp only [cin', this, add_zero, sub_zero]

end WTM
