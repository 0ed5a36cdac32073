import Verif.Lemmas.LocalColumn
import Verif.Props.ColumnLimit

/-! Property C261: near exhaustion an ion exchange column with two ions, whatever the selectivity and the valence of the second, tends to it
exponentially under a constant influent. -/
set_option autoImplicit false
namespace WTM
open BigOperators Set Topology Filter

section
variable {r z : ℕ}

/-- Specification: a column of either model with a monovalent presaturant and one other ion, monovalent or divalent, on the grids of the code. -/
structure Spec.BinaryColumn (m : ColModel) (P : ColParams r 1 z) (jac : Fin r → ℝ) (tH : ℝ) : Prop where
  grid : Spec.BeadGrid jac P.Br P.Wr
  axial : Spec.AxialGrid z P.Az
  bed : 0 < P.EBED ∧ P.EBED < 1
  flow : 0 < P.v ∧ 0 < P.L
  size : 0 < P.rb
  time : 0 < tH
  rates : 0 < P.Ds 1 ∧ 0 < P.kL 1
  pore : m = .psdm → 0 ≤ P.EPOR ∧ P.EPOR < 1 ∧ P.Ds 1 ≤ P.Dp 1
  select : P.K 0 = 1 ∧ 0 < P.K 1
  valence : P.val 0 = 1 ∧ (P.val 1 = 1 ∨ P.val 1 = 2)

/-- Specification: `q` is the loading of the second ion in equilibrium with the influent, the resin holding `Q` in all. -/
structure Spec.SpentLoading (m : ColModel) (P : ColParams r 1 z) (cin : Fin 2 → ℝ) (Q q : ℝ) : Prop where
  nonneg : 0 ≤ q
  less : q < Q
  law : Spec.Selectivity P.K P.val (fun i => m.load P (![Q - q, q] i)) cin

variable {m : ColModel} {P : ColParams r 1 z} {jac : Fin r → ℝ} {tH : ℝ} {cin : Fin 2 → ℝ} {Q q : ℝ}

/-- Divisor of the loadings. -/
noncomputable def loadDiv (m : ColModel) (P : ColParams r 1 z) : ℝ :=
  match m with
  | .hsdm => 1
  | .psdm => 1 - P.EPOR

theorem load_div (y : ℝ) : m.load P y = y / loadDiv m P := by
  cases m
  · exact (div_one y).symm
  · rfl

theorem loadDiv_pos (h : Spec.BinaryColumn m P jac tH) : 0 < loadDiv m P := by
  have hp := h.pore
  cases m
  · exact one_pos
  · exact sub_pos.2 (hp rfl).2.1

theorem binary_ok (h : Spec.BinaryColumn m P jac tH) {s : ℝ} (h0 : 0 ≤ s) (h1 : s < Q) :
    DvOk P.K P.val (fun i => m.load P (![Q - s, s] i)) := by
  have hl := loadDiv_pos h
  simp only [load_div]
  refine ⟨fun i => ?_, h.select.1, fun i => ?_, ?_, h.valence.1⟩
  · fin_cases i
    · show 0 < P.K 0; rw [h.select.1]; exact one_pos
    · exact h.select.2
  · fin_cases i
    · exact div_nonneg (sub_nonneg.2 h1.le) hl.le
    · exact div_nonneg h0 hl.le
  · exact div_pos (sub_pos.2 h1) hl

/-- Equilibrium concentration of the second ion. -/
noncomputable def binIso (m : ColModel) (P : ColParams r 1 z) (CT Q s : ℝ) : ℝ :=
  ceq P.K P.val (fun i => m.load P (![Q - s, s] i)) CT 1

theorem binary_cases (h : Spec.BinaryColumn m P jac tH) : (∀ i, P.val i = 1 ∨ P.val i = 2) ∧
    ((∃ i, P.val i = 2) ∨ ((∀ i, P.val i ≠ 2) ∧ P.val 1 = 1)) := by
  refine ⟨fun i => ?_, ?_⟩
  · fin_cases i
    · exact Or.inl h.valence.1
    · exact h.valence.2
  · rcases h.valence.2 with h1 | h1
    · refine Or.inr ⟨fun i => ?_, h1⟩
      fin_cases i
      · show P.val 0 ≠ 2; rw [h.valence.1]; decide
      · show P.val 1 ≠ 2; rw [h1]; decide
    · exact Or.inl ⟨1, h1⟩

/-- The law the equilibrium obeys. -/
theorem binIso_law (h : Spec.BinaryColumn m P jac tH) {CT s : ℝ} (hC : 0 < CT) (h0 : 0 ≤ s) (h1 : s < Q) :
    P.K 1 * binIso m P CT Q s * ((Q - s) / loadDiv m P) ^ P.val 1 = s / loadDiv m P * (CT - binIso m P CT Q s) ^ P.val 1 := by
  have hok := binary_ok h h0 h1
  obtain ⟨hv, hcase⟩ := binary_cases h
  rcases hcase with hd | ⟨hn, hv1⟩
  · have hs := (c24_unique hok hv hd hC).1 1
    have hsum := (c23_divalent hok hv hd hC).1
    unfold Spec.Neutral at hsum
    rw [Fin.sum_univ_two] at hsum
    have e : ceq P.K P.val (fun i => m.load P (![Q - s, s] i)) CT 0 = CT - binIso m P CT Q s := by unfold binIso; linarith
    rw [e] at hs
    have hs' : P.K 1 * binIso m P CT Q s * m.load P (Q - s) ^ P.val 1 = m.load P s * (CT - binIso m P CT Q s) ^ P.val 1 := hs
    rwa [load_div, load_div] at hs'
  · have hx := c22_monovalent hok.Kpos hok.qnonneg ⟨0, hok.qref.ne'⟩ hC.le hn
    have hsum := hx.1
    unfold Spec.Neutral at hsum
    rw [Fin.sum_univ_two] at hsum
    have e : ceq P.K P.val (fun i => m.load P (![Q - s, s] i)) CT 0 = CT - binIso m P CT Q s := by unfold binIso; linarith
    have hs := hx.2.1 1 0
    rw [e, h.select.1, div_one, load_div, load_div] at hs
    rw [hv1, pow_one, pow_one]
    have hs' : s / loadDiv m P * (CT - binIso m P CT Q s) = P.K 1 * ((Q - s) / loadDiv m P * binIso m P CT Q s) := hs
    linarith

/-- At the loading in equilibrium with the influent it is the influent. -/
theorem binIso_spent (h : Spec.BinaryColumn m P jac tH) (hc : 0 < cin 0 ∧ 0 ≤ cin 1) (hq : Spec.SpentLoading m P cin Q q) :
    binIso m P (∑ i, cin i) Q q = cin 1 := by
  have hC : 0 < ∑ i, cin i := by rw [Fin.sum_univ_two]; linarith [hc.1, hc.2]
  have hok := binary_ok h hq.nonneg hq.less
  obtain ⟨hv, hcase⟩ := binary_cases h
  rcases hcase with hd | ⟨hn, hv1⟩
  · have := (c24_unique hok hv hd hC).2 cin hc.1.le hq.law rfl
    unfold binIso
    rw [← this]
  · have h1 := binIso_law h hC hq.nonneg hq.less
    have h2 := hq.law 1
    simp only [load_div] at h2
    rw [hv1, pow_one, pow_one] at h1 h2
    have h2' : P.K 1 * cin 1 * ((Q - q) / loadDiv m P) = q / loadDiv m P * cin 0 := h2
    rw [Fin.sum_univ_two] at h1 ⊢
    have hl := loadDiv_pos h
    have hpos : 0 < P.K 1 * ((Q - q) / loadDiv m P) + q / loadDiv m P :=
      add_pos_of_pos_of_nonneg (mul_pos h.select.2 (div_pos (sub_pos.2 hq.less) hl)) (div_nonneg hq.nonneg hl.le)
    have : (P.K 1 * ((Q - q) / loadDiv m P) + q / loadDiv m P) * (binIso m P (cin 0 + cin 1) Q q - cin 1) = 0 := by
      linear_combination h1 - h2'
    have := (mul_eq_zero.1 this).resolve_left hpos.ne'
    linarith

theorem binIso_smooth (h : Spec.BinaryColumn m P jac tH) {CT s : ℝ} (hC : 0 < CT) (h0 : 0 ≤ s) (h1 : s < Q) :
    ContDiffAt ℝ 1 (binIso m P CT Q) s := by
  unfold binIso
  refine ceq_smooth (Q := fun s i => m.load P (![Q - s, s] i)) (C := fun _ => CT) (fun i => ?_) contDiffAt_const
    (eqRegular_of (binary_ok h h0 h1) hC.le) 1
  simp only [load_div]
  fin_cases i
  · exact (contDiffAt_const.sub contDiffAt_id).div_const _
  · exact contDiffAt_id.div_const _

/-- Its slope there is positive. -/
theorem binIso_deriv (h : Spec.BinaryColumn m P jac tH) (hc : 0 < cin 0 ∧ 0 ≤ cin 1) (hq : Spec.SpentLoading m P cin Q q) :
    ∃ a, 0 < a ∧ HasDerivAt (binIso m P (∑ i, cin i) Q) a q := by
  have hC : 0 < ∑ i, cin i := by rw [Fin.sum_univ_two]; linarith [hc.1, hc.2]
  have hval := binIso_spent h hc hq
  have hl := loadDiv_pos h
  set CT := ∑ i, cin i with hCT
  set l := loadDiv m P with hld
  have hc0 : CT - cin 1 = cin 0 := by rw [hCT, Fin.sum_univ_two]; ring
  have hd := ((binIso_smooth h hC hq.nonneg hq.less).differentiableAt one_ne_zero).hasDerivAt
  set a := deriv (binIso m P CT Q) q with ha
  refine ⟨a, ?_, hd⟩
  set v := P.val 1 with hv
  have hq0 : 0 < (Q - q) / l := div_pos (sub_pos.2 hq.less) hl
  have hq1 : 0 ≤ q / l := div_nonneg hq.nonneg hl.le
  have d1 : HasDerivAt (fun s => (Q - s) / l) (-1 / l) q := ((hasDerivAt_id q).const_sub Q).div_const l
  have d2 : HasDerivAt (fun s : ℝ => s / l) (1 / l) q := (hasDerivAt_id q).div_const l
  have d3 := ((hd.const_mul (P.K 1)).mul (d1.pow v)).sub (d2.mul ((hd.const_sub CT).pow v))
  have d4 : HasDerivWithinAt (fun _ : ℝ => (0 : ℝ)) _ (Ici q) q := d3.hasDerivWithinAt.congr_of_eventuallyEq_of_mem (by
    filter_upwards [self_mem_nhdsWithin, nhdsWithin_le_nhds (Iio_mem_nhds hq.less)] with s hs hs'
    have := binIso_law h hC (hq.nonneg.trans hs) hs'
    simp only [Pi.mul_apply, Pi.sub_apply, Pi.pow_apply]
    linarith) (mem_Ici.2 le_rfl)
  have e := (uniqueDiffWithinAt_Ici q).eq_deriv _ d4 (hasDerivWithinAt_const q _ 0)
  simp only [Pi.pow_apply, hval, hc0] at e
  have p1 : 0 < P.K 1 * ((Q - q) / l) ^ v := mul_pos h.select.2 (pow_pos hq0 _)
  have p2 : 0 ≤ q / l * (v * cin 0 ^ (v - 1)) := mul_nonneg hq1 (mul_nonneg (Nat.cast_nonneg _) (pow_nonneg hc.1.le _))
  have p3 : 0 < 1 / l * cin 0 ^ v := mul_pos (one_div_pos.2 hl) (pow_pos hc.1 _)
  have p4 : 0 ≤ P.K 1 * cin 1 * (v * ((Q - q) / l) ^ (v - 1)) * (1 / l) :=
    mul_nonneg (mul_nonneg (mul_nonneg h.select.2.le hc.2) (mul_nonneg (Nat.cast_nonneg _) (pow_nonneg hq0.le _))) (one_div_pos.2 hl).le
  have e' : a * (P.K 1 * ((Q - q) / l) ^ v + q / l * (v * cin 0 ^ (v - 1))) =
      1 / l * cin 0 ^ v + P.K 1 * cin 1 * (v * ((Q - q) / l) ^ (v - 1)) * (1 / l) := by
    rw [neg_div] at e
    linear_combination e
  by_contra hneg
  have := mul_nonpos_of_nonpos_of_nonneg (not_lt.1 hneg) (add_nonneg p1.le p2)
  linarith

/-- C261. There is such a loading, for every influent that contains some presaturant. -/
theorem spent_exists (h : Spec.BinaryColumn m P jac tH) (hc : 0 < cin 0 ∧ 0 ≤ cin 1) (hQ : 0 < Q) : ∃ q, Spec.SpentLoading m P cin Q q := by
  have hl := loadDiv_pos h
  let f : ℝ → ℝ := fun s => s / loadDiv m P * cin 0 ^ P.val 1 - P.K 1 * cin 1 * ((Q - s) / loadDiv m P) ^ P.val 1
  have hf : ContinuousOn f (Icc 0 Q) := by
    show ContinuousOn (fun s => s / loadDiv m P * cin 0 ^ P.val 1 - P.K 1 * cin 1 * ((Q - s) / loadDiv m P) ^ P.val 1) _
    fun_prop
  have hv : P.val 1 ≠ 0 := by rcases h.valence.2 with e | e <;> rw [e] <;> decide
  have h0 : f 0 ≤ 0 := by
    show 0 / loadDiv m P * cin 0 ^ P.val 1 - P.K 1 * cin 1 * ((Q - 0) / loadDiv m P) ^ P.val 1 ≤ 0
    have : 0 ≤ P.K 1 * cin 1 * ((Q - 0) / loadDiv m P) ^ P.val 1 :=
      mul_nonneg (mul_nonneg h.select.2.le hc.2) (pow_nonneg (div_nonneg (by linarith) hl.le) _)
    rw [zero_div, zero_mul]; linarith
  have hQ1 : 0 < f Q := by
    show 0 < Q / loadDiv m P * cin 0 ^ P.val 1 - P.K 1 * cin 1 * ((Q - Q) / loadDiv m P) ^ P.val 1
    rw [sub_self, zero_div, zero_pow hv, mul_zero, sub_zero]
    exact mul_pos (div_pos hQ hl) (pow_pos hc.1 _)
  obtain ⟨q, hq, hz⟩ := intermediate_value_Icc hQ.le hf ⟨h0, hQ1.le⟩
  have hne : q ≠ Q := fun e => by rw [e] at hz; exact hQ1.ne' hz
  refine ⟨q, hq.1, lt_of_le_of_ne hq.2 hne, fun i => ?_⟩
  simp only [load_div]
  fin_cases i
  · show P.K 0 * cin 0 * ((Q - q) / loadDiv m P) ^ P.val 0 = (Q - q) / loadDiv m P * cin 0 ^ P.val 0
    rw [h.select.1, h.valence.1]; ring
  · show P.K 1 * cin 1 * ((Q - q) / loadDiv m P) ^ P.val 1 = q / loadDiv m P * cin 0 ^ P.val 1
    have : q / loadDiv m P * cin 0 ^ P.val 1 - P.K 1 * cin 1 * ((Q - q) / loadDiv m P) ^ P.val 1 = 0 := hz
    linarith

/-- C261. There is no other. -/
theorem spent_unique (h : Spec.BinaryColumn m P jac tH) (hc : 0 < cin 0 ∧ 0 ≤ cin 1) {q' : ℝ} (hq : Spec.SpentLoading m P cin Q q)
    (hq' : Spec.SpentLoading m P cin Q q') : q' = q := by
  have hl := loadDiv_pos h
  have key : ∀ s s' : ℝ, Spec.SpentLoading m P cin Q s → Spec.SpentLoading m P cin Q s' → ¬ s < s' := by
    intro s s' hs hs' hlt
    have e := hs.law 1
    have e' := hs'.law 1
    simp only [load_div] at e e'
    have e1 : P.K 1 * cin 1 * ((Q - s) / loadDiv m P) ^ P.val 1 = s / loadDiv m P * cin 0 ^ P.val 1 := e
    have e2 : P.K 1 * cin 1 * ((Q - s') / loadDiv m P) ^ P.val 1 = s' / loadDiv m P * cin 0 ^ P.val 1 := e'
    have h1 : ((Q - s') / loadDiv m P) ^ P.val 1 ≤ ((Q - s) / loadDiv m P) ^ P.val 1 :=
      pow_le_pow_left₀ (div_nonneg (sub_nonneg.2 hs'.less.le) hl.le) (div_le_div_of_nonneg_right (by linarith) hl.le) _
    have h2 := mul_le_mul_of_nonneg_left h1 (mul_nonneg h.select.2.le hc.2)
    have h3 : s / loadDiv m P * cin 0 ^ P.val 1 < s' / loadDiv m P * cin 0 ^ P.val 1 :=
      mul_lt_mul_of_pos_right (div_lt_div_of_pos_right hlt hl) (pow_pos hc.1 _)
    linarith
  exact le_antisymm (not_lt.1 (key q q' hq hq')) (not_lt.1 (key q' q hq' hq))

/-! ### Rates -/

/-- Excesses of the second ion over the exhausted column. -/
noncomputable def binExc (c q : ℝ) (u : ColState r 1 z) : BedExc r z :=
  (fun k => u k.succ 1 0 - q, fun w => (fun k => u k.succ 1 w.succ - q, u 0 1 w.succ - c))

/-- Coefficients of pore and surface diffusion. -/
noncomputable def binAlpha (m : ColModel) (P : ColParams r 1 z) (tH : ℝ) : ℝ :=
  match m with
  | .hsdm => 0
  | .psdm => tH * (P.EPOR * (P.Dp 1 - P.Ds 1)) / P.rb ^ 2

theorem binAlpha_nonneg (h : Spec.BinaryColumn m P jac tH) : 0 ≤ binAlpha m P tH := by
  have ht := h.time
  have hp := h.pore
  cases m
  · exact le_rfl
  · have := sub_nonneg.2 (hp rfl).2.2
    have := (hp rfl).1
    unfold binAlpha
    positivity

theorem bin_ceq {CT : ℝ} {x : Fin 2 → ℝ} (hx : ∑ i, x i = Q) :
    ceq P.K P.val (fun i => m.load P (x i)) CT 1 = binIso m P CT Q (x 1) := by
  unfold binIso
  congr 1
  rw [Fin.sum_univ_two] at hx
  funext i
  congr 1
  fin_cases i
  · show x 0 = Q - x 1
    linarith
  · rfl

/-- The rates are those of a column with this isotherm. -/
theorem bin_rates (h : Spec.BinaryColumn m P jac tH) {u : ColState r 1 z}
    (hu : Spec.Totals (∑ i, cin i) Q u) :
    (((fun k => m.rhs P tH cin u k.succ 1 0),
      fun w => ((fun k => m.rhs P tH cin u k.succ 1 w.succ), m.rhs P tH cin u 0 1 w.succ)) : BedExc r z) =
    bedRhs (fun x => binIso m P (∑ i, cin i) Q (q + x) - cin 1) (binAlpha m P tH) (P.Ds 1 * tH / P.rb ^ 2) (tH * P.kL 1 / P.rb)
      (3 * (1 - P.EBED) / P.EBED) (P.v * tH / (P.L * P.EBED)) P.Az P.Br P.Wr (binExc (cin 1) q u) := by
  have h10 : (1 : Fin 2) ≠ 0 := by decide
  have hE := h.bed.1.ne'
  have hL := h.flow.2.ne'
  have hb := h.size.ne'
  set φ := fun x => binIso m P (∑ i, cin i) Q (q + x) - cin 1 with hφ
  have hiso : ∀ s, φ (s - q) = binIso m P (∑ i, cin i) Q s - cin 1 := fun s => by rw [hφ]; simp only [add_sub_cancel]
  have hflux : ∀ w, m.flux P (setInlet u cin) 1 w = -(P.kL 1 * (setInlet u cin 0 1 w - cin 1 - φ (u (Fin.last r).succ 1 w - q))) := by
    intro w
    unfold ColModel.flux fluxJ implicitRef
    rw [if_neg h10, plain_total hu, ← Fin.succ_last]
    simp only [setInlet_bead]
    rw [bin_ceq (hu.beads (Fin.last r) w), hiso]
    ring
  have hbead : ∀ k w, m.bead P tH (setInlet u cin) k 1 w =
      ∑ l, P.Br k l * tankPsi φ (binAlpha m P tH) (P.Ds 1 * tH / P.rb ^ 2) (u l.succ 1 w - q) := by
    intro k w
    have e : ∀ l, P.Br k l * tankPsi φ (binAlpha m P tH) (P.Ds 1 * tH / P.rb ^ 2) (u l.succ 1 w - q) =
        binAlpha m P tH * (P.Br k l * binIso m P (∑ i, cin i) Q (u l.succ 1 w)) + P.Ds 1 * tH / P.rb ^ 2 * (P.Br k l * u l.succ 1 w) -
          (binAlpha m P tH * cin 1 + P.Ds 1 * tH / P.rb ^ 2 * q) * P.Br k l := by
      intro l
      unfold tankPsi
      rw [hiso]
      ring
    simp only [e, Finset.sum_sub_distrib, Finset.sum_add_distrib, ← Finset.mul_sum]
    rw [h.grid.rows, mul_zero, sub_zero]
    cases m with
    | hsdm =>
      show hsdmBead P tH _ k 1 w = _
      unfold hsdmBead implicitRef binAlpha
      rw [if_neg h10]
      simp only [setInlet_bead, zero_mul, zero_add]
    | psdm =>
      show psdmBead P tH _ k 1 w = _
      have hp : ∀ l, poreConc P (setInlet u cin) l 1 w = binIso .psdm P (∑ i, cin i) Q (u l.succ 1 w) := by
        intro l
        unfold poreConc
        rw [plain_total hu]
        simp only [setInlet_bead]
        exact bin_ceq (m := .psdm) (hu.beads l w)
      unfold psdmBead implicitRef binAlpha
      rw [if_neg h10]
      simp only [setInlet_bead, hp]
      ring
  refine Prod.ext (funext fun k => ?_) (funext fun w => Prod.ext (funext fun k => ?_) ?_)
  · show m.rhs P tH cin u k.succ 1 0 = _
    rw [rhs_eq, assemble_bead]
    simp only [bedRhs, binExc, tankRhs, hflux, hbead]
    have e0 : setInlet u cin 0 1 0 = cin 1 := by simp [setInlet]
    split
    · rw [e0]
      congr 1
      ring
    · rfl
  · show m.rhs P tH cin u k.succ 1 w.succ = _
    rw [rhs_eq, assemble_bead]
    simp only [bedRhs, binExc, tankRhs, hflux, hbead, Prod.fst_sub, sub_zero]
    have e0 : setInlet u cin 0 1 w.succ = u 0 1 w.succ := by simp [setInlet]
    split
    · rw [e0]
      congr 1
      ring
    · rfl
  · show m.rhs P tH cin u 0 1 w.succ = _
    have e0 : ∀ w : Fin z, setInlet u cin 0 1 w.succ = u 0 1 w.succ := fun w => by simp [setInlet]
    have h0 := (axial_moves h.axial (fun _ => 1)).2 (fun _ => rfl) w.succ (Fin.succ_ne_zero w)
    simp only [mul_one] at h0
    rw [Fin.sum_univ_succ] at h0
    have hadv : ∑ w', P.Az w.succ w' * setInlet u cin 0 1 w' = ∑ w' : Fin z, P.Az w.succ w'.succ * (u 0 1 w'.succ - cin 1) := by
      rw [Fin.sum_univ_succ]
      simp only [e0, mul_sub, Finset.sum_sub_distrib, ← Finset.sum_mul]
      have e1 : setInlet u cin 0 1 0 = cin 1 := by simp [setInlet]
      rw [e1]
      linear_combination cin 1 * h0
    rw [rhs_eq, assemble_liq, if_neg (Fin.succ_ne_zero w), liqRate, hadv, hflux, e0]
    simp only [bedRhs, binExc, tankRhs, Prod.snd_sub]
    field_simp
    ring

/-- Specification: no concentration below the inlet and no loading of a state is more than `ε` away from the exhausted column. -/
def Spec.BinWithin (cin : Fin 2 → ℝ) (Q q ε : ℝ) (u : ColState r 1 z) : Prop :=
  (∀ i w, w ≠ 0 → |u 0 i w - cin i| ≤ ε) ∧ ∀ (k : Fin (r + 1)) i w, |u k.succ i w - ![Q - q, q] i| ≤ ε

theorem binExc_norm {ε : ℝ} (hε : 0 ≤ ε) {u : ColState r 1 z} (hu : Spec.Totals (∑ i, cin i) Q u) :
    ‖binExc (cin 1) q u‖ ≤ ε ↔ Spec.BinWithin cin Q q ε u := by
  unfold Spec.BinWithin
  rw [norm_prod_le_iff, pi_norm_le_iff_of_nonneg hε, pi_norm_le_iff_of_nonneg hε]
  simp only [norm_prod_le_iff, pi_norm_le_iff_of_nonneg hε, binExc, Real.norm_eq_abs]
  constructor
  · rintro ⟨h1, h2⟩
    have hb : ∀ (k : Fin (r + 1)) w, |u k.succ 1 w - q| ≤ ε := fun k w => Fin.cases (h1 k) (fun w => (h2 w).1 k) w
    have hw : ∀ w, w ≠ 0 → |u 0 1 w - cin 1| ≤ ε := fun w hw => by
      obtain ⟨w', rfl⟩ := Fin.exists_succ_eq.2 hw
      exact (h2 w').2
    refine ⟨fun i w h0 => ?_, fun k i w => ?_⟩
    · fin_cases i
      · have e := hu.water w h0
        have e1 : ∑ i, u 0 i w = u 0 0 w + u 0 1 w := Fin.sum_univ_two _
        rw [e1, Fin.sum_univ_two] at e
        show |u 0 0 w - cin 0| ≤ ε
        rw [show u 0 0 w - cin 0 = -(u 0 1 w - cin 1) by linarith, abs_neg]
        exact hw w h0
      · exact hw w h0
    · fin_cases i
      · have e := hu.beads k w
        have e1 : ∑ i, u k.succ i w = u k.succ 0 w + u k.succ 1 w := Fin.sum_univ_two _
        rw [e1] at e
        show |u k.succ 0 w - (Q - q)| ≤ ε
        rw [show u k.succ 0 w - (Q - q) = -(u k.succ 1 w - q) by linarith, abs_neg]
        exact hb k w
      · exact hb k w
  · rintro ⟨h1, h2⟩
    exact ⟨fun k => h2 k 1 0, fun w => ⟨fun k => h2 k 1 w.succ, h1 1 _ (Fin.succ_ne_zero w)⟩⟩

/-- The second ion of the state with these excesses. -/
noncomputable def binSecond (c q : ℝ) (x : BedExc r z) (a : Fin (r + 2)) (w : Fin (z + 1)) : ℝ :=
  Fin.cases (motive := fun _ => ℝ) (c + Fin.cases (motive := fun _ => ℝ) 0 (fun w => (x.2 w).2) w)
    (fun k => q + Fin.cases (motive := fun _ => ℝ) (x.1 k) (fun w => (x.2 w).1 k) w) a

/-- The state with these excesses, and `e` in the slot of the inlet. -/
noncomputable def binBuild (cin : Fin 2 → ℝ) (Q q : ℝ) (e : Fin 2 → ℝ) (x : BedExc r z) : ColState r 1 z := fun a i w =>
  if a = 0 ∧ w = 0 then e i else if i = 0 then (if a = 0 then ∑ i, cin i else Q) - binSecond (cin 1) q x a w else binSecond (cin 1) q x a w

theorem binBuild_totals (e : Fin 2 → ℝ) (x : BedExc r z) : Spec.Totals (∑ i, cin i) Q (binBuild cin Q q e x) := by
  refine ⟨fun w hw => ?_, fun k w => ?_⟩
  · rw [Fin.sum_univ_two (f := fun i => binBuild cin Q q e x 0 i w)]
    simp [binBuild, hw]
  · rw [Fin.sum_univ_two]
    simp [binBuild, Fin.succ_ne_zero]

theorem binExc_build (e : Fin 2 → ℝ) (x : BedExc r z) : binExc (cin 1) q (binBuild cin Q q e x) = x := by
  refine Prod.ext (funext fun k => ?_) (funext fun w => Prod.ext (funext fun k => ?_) ?_)
  · simp [binExc, binBuild, binSecond, Fin.succ_ne_zero]
  · simp [binExc, binBuild, binSecond, Fin.succ_ne_zero]
  · simp [binExc, binBuild, binSecond, Fin.succ_ne_zero]

theorem binBuild_exc {u : ColState r 1 z} (hu : Spec.Totals (∑ i, cin i) Q u) :
    binBuild cin Q q (fun i => u 0 i 0) (binExc (cin 1) q u) = u := by
  have h2 : ∀ a w, (a ≠ 0 ∨ w ≠ 0) → binSecond (cin 1) q (binExc (cin 1) q u) a w = u a 1 w := by
    intro a w h
    refine Fin.cases (fun h => ?_) (fun k _ => ?_) a h
    · rcases h with h | h
      · exact absurd rfl h
      · obtain ⟨w', rfl⟩ := Fin.exists_succ_eq.2 h
        simp [binSecond, binExc]
    · refine Fin.cases ?_ (fun w => ?_) w <;> simp [binSecond, binExc]
  funext a i w
  unfold binBuild
  split
  · rename_i h; rw [h.1, h.2]
  · rename_i h
    have h' : a ≠ 0 ∨ w ≠ 0 := by
      by_contra hc
      push Not at hc
      exact h hc
    rw [h2 a w h']
    fin_cases i
    · simp only [Fin.zero_eta, if_true]
      revert h h'
      refine Fin.cases ?_ (fun k => ?_) a
      · intro h h'
        have hw : w ≠ 0 := fun e => h ⟨rfl, e⟩
        have := hu.water w hw
        rw [Fin.sum_univ_two (f := fun i => u 0 i w)] at this
        rw [if_pos rfl]; linarith
      · intro _ _
        have := hu.beads k w
        rw [Fin.sum_univ_two] at this
        rw [if_neg (Fin.succ_ne_zero k)]; linarith
    · rfl

theorem binSecond_deriv {c : ℝ} {x : ℝ → BedExc r z} {x' : BedExc r z} {S : Set ℝ} {t : ℝ} (h : HasDerivWithinAt x x' S t) (a : Fin (r + 2))
    (w : Fin (z + 1)) (hw : a ≠ 0 ∨ w ≠ 0) : HasDerivWithinAt (fun t => binSecond c q (x t) a w) (binSecond 0 0 x' a w) S t := by
  have h1 : ∀ k, HasDerivWithinAt (fun t => (x t).1 k) (x'.1 k) S t := fun k => by
    have := (ContinuousLinearMap.fst ℝ (Fin (r + 1) → ℝ) (ColExc r z)).hasFDerivAt.comp_hasDerivWithinAt t h
    exact hasDerivWithinAt_pi.1 this k
  have h2 : ∀ w, HasDerivWithinAt (fun t => (x t).2 w) (x'.2 w) S t := fun w => by
    have := (ContinuousLinearMap.snd ℝ (Fin (r + 1) → ℝ) (ColExc r z)).hasFDerivAt.comp_hasDerivWithinAt t h
    exact hasDerivWithinAt_pi.1 this w
  have h3 : ∀ w k, HasDerivWithinAt (fun t => ((x t).2 w).1 k) ((x'.2 w).1 k) S t := fun w k => by
    have := (ContinuousLinearMap.fst ℝ (Fin (r + 1) → ℝ) ℝ).hasFDerivAt.comp_hasDerivWithinAt t (h2 w)
    exact hasDerivWithinAt_pi.1 this k
  have h4 : ∀ w, HasDerivWithinAt (fun t => ((x t).2 w).2) ((x'.2 w).2) S t := fun w =>
    (ContinuousLinearMap.snd ℝ (Fin (r + 1) → ℝ) ℝ).hasFDerivAt.comp_hasDerivWithinAt t (h2 w)
  refine Fin.cases (fun hw => ?_) (fun k _ => ?_) a hw
  · rcases hw with hw | hw
    · exact absurd rfl hw
    · obtain ⟨w', rfl⟩ := Fin.exists_succ_eq.2 hw
      simp only [binSecond, Fin.cases_zero, Fin.cases_succ, zero_add]
      exact (h4 w').const_add _
  · refine Fin.cases ?_ (fun w => ?_) w
    · simp only [binSecond, Fin.cases_zero, Fin.cases_succ, zero_add]
      exact (h1 k).const_add _
    · simp only [binSecond, Fin.cases_succ, zero_add]
      exact (h3 w k).const_add _

/-- Runs of the excesses are runs of the column. -/
theorem bin_solves (h : Spec.BinaryColumn m P jac tH) (e : Fin 2 → ℝ) {x : ℝ → BedExc r z} {T : ℝ}
    (hx : ∀ t ∈ Icc 0 T, HasDerivWithinAt x (bedRhs (fun x => binIso m P (∑ i, cin i) Q (q + x) - cin 1) (binAlpha m P tH)
      (P.Ds 1 * tH / P.rb ^ 2) (tH * P.kL 1 / P.rb) (3 * (1 - P.EBED) / P.EBED) (P.v * tH / (P.L * P.EBED)) P.Az P.Br P.Wr (x t)) (Icc 0 T) t) :
    Spec.Solves colComp (fun _ u => m.rhs P tH cin u) 0 T (fun t => binBuild cin Q q e (x t)) := by
  rintro t ht ⟨a, i, w⟩
  have htot := binBuild_totals (cin := cin) (Q := Q) (q := q) e (x t)
  have hr := hx t ht
  rw [show x t = binExc (cin 1) q (binBuild cin Q q e (x t)) from (binExc_build e (x t)).symm, ← bin_rates h htot] at hr
  show HasDerivWithinAt (fun t => binBuild cin Q q e (x t) a i w) (m.rhs P tH cin (binBuild cin Q q e (x t)) a i w) (Icc 0 T) t
  by_cases h0 : a = 0 ∧ w = 0
  · obtain ⟨rfl, rfl⟩ := h0
    simp only [binBuild, and_self, if_true]
    rw [rhs_eq, assemble_liq, if_pos rfl]
    exact hasDerivWithinAt_const _ _ _
  · have h0' : a ≠ 0 ∨ w ≠ 0 := by
      by_contra hc
      push Not at hc
      exact h0 hc
    have hd := binSecond_deriv (c := cin 1) (q := q) hr a w h0'
    have e1 : binSecond 0 0 (((fun k => m.rhs P tH cin (binBuild cin Q q e (x t)) k.succ 1 0),
        fun w => ((fun k => m.rhs P tH cin (binBuild cin Q q e (x t)) k.succ 1 w.succ),
          m.rhs P tH cin (binBuild cin Q q e (x t)) 0 1 w.succ)) : BedExc r z) a w = m.rhs P tH cin (binBuild cin Q q e (x t)) a 1 w := by
      refine Fin.cases (fun h0' => ?_) (fun k _ => ?_) a h0'
      · rcases h0' with h | h
        · exact absurd rfl h
        · obtain ⟨w', rfl⟩ := Fin.exists_succ_eq.2 h
          simp [binSecond]
      · refine Fin.cases ?_ (fun w => ?_) w <;> simp [binSecond]
    rw [e1] at hd
    fin_cases i
    · have hs := plain_sums (m := m) (P := P) (tH := tH) (axial_moves h.axial) htot a w
      rw [Fin.sum_univ_two] at hs
      show HasDerivWithinAt (fun t => binBuild cin Q q e (x t) a 0 w) (m.rhs P tH cin (binBuild cin Q q e (x t)) a 0 w) (Icc 0 T) t
      have e0 : m.rhs P tH cin (binBuild cin Q q e (x t)) a 0 w = -m.rhs P tH cin (binBuild cin Q q e (x t)) a 1 w := by linarith
      have e2 : ∀ t, binBuild cin Q q e (x t) a 0 w = (if a = 0 then ∑ i, cin i else Q) - binSecond (cin 1) q (x t) a w := fun t => by
        unfold binBuild; rw [if_neg h0, if_pos rfl]
      rw [e0]
      simp only [e2]
      exact hd.const_sub _
    · show HasDerivWithinAt (fun t => binBuild cin Q q e (x t) a 1 w) (m.rhs P tH cin (binBuild cin Q q e (x t)) a 1 w) (Icc 0 T) t
      have e2 : ∀ t, binBuild cin Q q e (x t) a 1 w = binSecond (cin 1) q (x t) a w := fun t => by
        unfold binBuild; rw [if_neg h0, if_neg (by decide)]
      simp only [e2]
      exact hd

theorem binIso_zero (h : Spec.BinaryColumn m P jac tH) (hc : 0 < cin 0 ∧ 0 ≤ cin 1) (hq : Spec.SpentLoading m P cin Q q) :
    (fun x => binIso m P (∑ i, cin i) Q (q + x) - cin 1) 0 = 0 := by
  beta_reduce
  rw [add_zero, binIso_spent h hc hq, sub_self]

/-- Totals persist. -/
theorem bin_totals (h : Spec.BinaryColumn m P jac tH) (hc : 0 < cin 0 ∧ 0 ≤ cin 1) (hq : Spec.SpentLoading m P cin Q q) {T : ℝ}
    {y : ℝ → ColState r 1 z} (hy : Spec.Solves colComp (fun _ u => m.rhs P tH cin u) 0 T y) (h0 : Spec.Totals (∑ i, cin i) Q (y 0)) :
    ∀ t ∈ Icc 0 T, Spec.Totals (∑ i, cin i) Q (y t) := by
  intro t ht
  have hz := binIso_zero h hc hq
  have hrest := bin_solves (Q := Q) (q := q) (cin := cin) h cin (x := fun _ => 0) (T := T) (fun t _ => by
    have : bedRhs (fun x => binIso m P (∑ i, cin i) Q (q + x) - cin 1) (binAlpha m P tH) (P.Ds 1 * tH / P.rb ^ 2) (tH * P.kL 1 / P.rb)
        (3 * (1 - P.EBED) / P.EBED) (P.v * tH / (P.L * P.EBED)) P.Az P.Br P.Wr (0 : BedExc r z) = 0 := by
      generalize (fun x => binIso m P (∑ i, cin i) Q (q + x) - cin 1) = φ at hz
      refine Prod.ext (funext fun k => ?_) (funext fun w => Prod.ext (funext fun k => ?_) ?_) <;>
        simp [bedRhs, tankRhs, tankPsi, hz]
    rw [this]
    exact hasDerivWithinAt_const _ _ _)
  have hx := binBuild_totals (cin := cin) (Q := Q) (q := q) (r := r) (z := z) cin 0
  refine ⟨fun w hw => ?_, fun k w => ?_⟩
  · have := totals_follow m P tH (cin := fun _ => cin) (cin' := fun _ => cin) (fun s hs => rfl) hrest hy
      (fun w hw => by rw [h0.water w hw, hx.water w hw]) t ht w hw
    rw [this, hx.water w hw]
  · rw [c28_solutions m P tH (fun _ => cin) hy ht, h0.beads]

theorem binIso_at (h : Spec.BinaryColumn m P jac tH) (hc : 0 < cin 0 ∧ 0 ≤ cin 1) (hq : Spec.SpentLoading m P cin Q q) :
    ContDiffAt ℝ 1 (fun x => binIso m P (∑ i, cin i) Q (q + x) - cin 1) 0 ∧
    ∃ a, 0 < a ∧ HasDerivAt (fun x => binIso m P (∑ i, cin i) Q (q + x) - cin 1) a 0 := by
  have hC : 0 < ∑ i, cin i := by rw [Fin.sum_univ_two]; linarith [hc.1, hc.2]
  refine ⟨?_, ?_⟩
  · have h1 := binIso_smooth h hC hq.nonneg hq.less
    rw [← add_zero q] at h1
    have h2 : ContDiffAt ℝ 1 (fun x : ℝ => q + x) 0 := by fun_prop
    exact (ContDiffAt.comp (g := binIso m P (∑ i, cin i) Q) (f := fun x => q + x) 0 h1 h2).sub contDiffAt_const
  · obtain ⟨a, ha, hd⟩ := binIso_deriv h hc hq
    rw [← add_zero q] at hd
    exact ⟨a, ha, ((hd.comp_const_add q 0)).sub_const _⟩

/-- C261. Every run that starts near the exhausted column, with the totals that `solve` starts from, tends to it exponentially. -/
theorem c261_near (h : Spec.BinaryColumn m P jac tH) (hc : 0 < cin 0 ∧ 0 ≤ cin 1) (hq : Spec.SpentLoading m P cin Q q) :
    ∃ δ C ω : ℝ, 0 < δ ∧ 0 < C ∧ 0 < ω ∧ ∀ (ε T : ℝ) (y : ℝ → ColState r 1 z),
    Spec.Solves colComp (fun _ u => m.rhs P tH cin u) 0 T y → Spec.Totals (∑ i, cin i) Q (y 0) → Spec.BinWithin cin Q q ε (y 0) → ε ≤ δ →
    ∀ t ∈ Icc 0 T, Spec.BinWithin cin Q q (C * Real.exp (-(ω * t)) * ε) (y t) := by
  obtain ⟨-, a, ha, hd⟩ := binIso_at h hc hq
  obtain ⟨G, hG⟩ := axial_form h.axial
  have hb := h.size
  have hE0 := h.bed.1
  have hE1 : 0 < 1 - P.EBED := sub_pos.2 h.bed.2
  have ht := h.time
  have hv := h.flow.1
  have hL := h.flow.2
  have hD := h.rates.1
  have hk := h.rates.2
  have hα := binAlpha_nonneg h
  obtain ⟨δ, C, ω, hδ, hC, hω, hx⟩ := bed_local (α := binAlpha m P tH) (b := P.Ds 1 * tH / P.rb ^ 2) (f := tH * P.kL 1 / P.rb)
    (μ := 3 * (1 - P.EBED) / P.EBED) (κ := P.v * tH / (P.L * P.EBED)) h.grid (axial_moves h.axial) hG hd (binIso_zero h hc hq) ha
    (by positivity) (by positivity) (by positivity) (by positivity)
  refine ⟨δ, C, ω, hδ, hC, hω, fun ε T y hy hT h0 hε t ht => ?_⟩
  have hε0 : 0 ≤ ε := (abs_nonneg _).trans (h0.2 0 0 0)
  have hn := (binExc_norm hε0 hT).2 h0
  have hst := bin_totals h hc hq hy hT
  have := hx (fun s => binExc (cin 1) q (y s)) T (fun s hs => by
    rw [← bin_rates h (hst s hs)]
    refine HasDerivWithinAt.prodMk (hasDerivWithinAt_pi.2 fun k => ?_) (hasDerivWithinAt_pi.2 fun w =>
      HasDerivWithinAt.prodMk (hasDerivWithinAt_pi.2 fun k => ?_) ?_)
    · exact (hy s hs (k.succ, 1, 0)).sub_const _
    · exact (hy s hs (k.succ, 1, w.succ)).sub_const _
    · exact (hy s hs (0, 1, w.succ)).sub_const _) (hn.trans hε) t ht
  exact (binExc_norm (by positivity) (hst t ht)).1 (this.trans (mul_le_mul_of_nonneg_left hn (by positivity)))

/-- C261. From every such state near the exhausted column there is a run for all time. -/
theorem c261_run (h : Spec.BinaryColumn m P jac tH) (hc : 0 < cin 0 ∧ 0 ≤ cin 1) (hq : Spec.SpentLoading m P cin Q q) :
    ∃ δ : ℝ, 0 < δ ∧ ∀ u : ColState r 1 z, Spec.Totals (∑ i, cin i) Q u → Spec.BinWithin cin Q q δ u →
    ∃ y : ℝ → ColState r 1 z, y 0 = u ∧ ∀ T, Spec.Solves colComp (fun _ u => m.rhs P tH cin u) 0 T y := by
  obtain ⟨hs, a, ha, hd⟩ := binIso_at h hc hq
  obtain ⟨G, hG⟩ := axial_form h.axial
  have hb := h.size
  have hE0 := h.bed.1
  have hE1 : 0 < 1 - P.EBED := sub_pos.2 h.bed.2
  have ht := h.time
  have hv := h.flow.1
  have hL := h.flow.2
  have hD := h.rates.1
  have hk := h.rates.2
  have hα := binAlpha_nonneg h
  obtain ⟨δ, hδ, hx⟩ := bed_run (α := binAlpha m P tH) (b := P.Ds 1 * tH / P.rb ^ 2) (f := tH * P.kL 1 / P.rb)
    (μ := 3 * (1 - P.EBED) / P.EBED) (κ := P.v * tH / (P.L * P.EBED)) h.grid (axial_moves h.axial) hG hs hd (binIso_zero h hc hq) ha
    (by positivity) (by positivity) (by positivity) (by positivity)
  refine ⟨δ, hδ, fun u hu hw => ?_⟩
  obtain ⟨x, hx0, hx⟩ := hx (binExc (cin 1) q u) ((binExc_norm hδ.le hu).2 hw)
  exact ⟨fun t => binBuild cin Q q (fun i => u 0 i 0) (x t), by beta_reduce; rw [hx0, binBuild_exc hu], fun T => bin_solves h _ (hx T)⟩

theorem col_shift {p : ℕ} {F : ColState r p z → ColState r p z} {y : ℝ → ColState r p z} {s T : ℝ} (hs : 0 ≤ s)
    (hy : Spec.Solves colComp (fun _ u => F u) 0 (s + T) y) : Spec.Solves colComp (fun _ u => F u) 0 T (fun t => y (s + t)) := by
  intro t ht a
  have h1 := hy (s + t) ⟨by linarith [ht.1], by linarith [ht.2]⟩ a
  have h2 : HasDerivWithinAt (fun τ : ℝ => s + τ) 1 (Icc 0 T) t := ((hasDerivAt_id t).const_add s).hasDerivWithinAt
  have h3 := HasDerivWithinAt.comp (h := fun τ : ℝ => s + τ) t h1 h2 (fun τ hτ => ⟨by linarith [hτ.1], by linarith [hτ.2]⟩)
  rw [mul_one] at h3
  exact h3

/-- C261. Every run for all time with these totals, whatever its start, either keeps away from the exhausted column for ever or tends
to it. -/
theorem c261_either (h : Spec.BinaryColumn m P jac tH) (hc : 0 < cin 0 ∧ 0 ≤ cin 1) (hq : Spec.SpentLoading m P cin Q q) :
    ∃ δ : ℝ, 0 < δ ∧ ∀ y : ℝ → ColState r 1 z, (∀ T, Spec.Solves colComp (fun _ u => m.rhs P tH cin u) 0 T y) →
    Spec.Totals (∑ i, cin i) Q (y 0) →
    (∀ t, 0 ≤ t → ¬ Spec.BinWithin cin Q q δ (y t)) ∨
    ((∀ i w, w ≠ 0 → Tendsto (fun t => y t 0 i w) atTop (nhds (cin i))) ∧
      ∀ (k : Fin (r + 1)) i w, Tendsto (fun t => y t k.succ i w) atTop (nhds (![Q - q, q] i))) := by
  obtain ⟨δ, C, ω, hδ, hC, hω, hx⟩ := c261_near h hc hq
  refine ⟨δ, hδ, fun y hy hT => ?_⟩
  by_cases hs : ∃ s, 0 ≤ s ∧ Spec.BinWithin cin Q q δ (y s)
  · obtain ⟨s, hs0, hs⟩ := hs
    right
    have hst := bin_totals h hc hq (hy s) hT s ⟨hs0, le_rfl⟩
    have hW : ∀ t, s ≤ t → Spec.BinWithin cin Q q (C * Real.exp (-(ω * (t - s))) * δ) (y t) := by
      intro t ht
      have := hx δ (t - s) (fun τ => y (s + τ)) (col_shift hs0 (hy _)) (by rw [add_zero]; exact hst) (by rw [add_zero]; exact hs) le_rfl
        (t - s) ⟨by linarith, le_rfl⟩
      rwa [add_sub_cancel] at this
    have hlim : Tendsto (fun t => C * Real.exp (-(ω * (t - s))) * δ) atTop (nhds 0) := by
      have h1 : Tendsto (fun t : ℝ => ω * (t - s)) atTop atTop := (tendsto_atTop_add_const_right _ (-s) tendsto_id).const_mul_atTop hω
      have h3 := ((Real.tendsto_exp_neg_atTop_nhds_zero.comp h1).const_mul C).mul_const δ
      simpa using h3
    have key : ∀ (f : ℝ → ℝ) (b : ℝ), (∀ t, s ≤ t → |f t - b| ≤ C * Real.exp (-(ω * (t - s))) * δ) → Tendsto f atTop (nhds b) := by
      intro f b hf
      rw [tendsto_iff_dist_tendsto_zero]
      refine squeeze_zero' (Eventually.of_forall fun t => dist_nonneg) ?_ hlim
      filter_upwards [eventually_ge_atTop s] with t h0
      rw [Real.dist_eq]
      exact hf t h0
    exact ⟨fun i w hw => key _ _ fun t ht => (hW t ht).1 i w hw, fun k i w => key _ _ fun t ht => (hW t ht).2 k i w⟩
  · left
    push Not at hs
    exact hs

/-- C261. If a run tends to the exhausted column, the area between influent and effluent tends to what the exhausted column holds less what
was in it at the start, ion by ion. -/
theorem c261_area (h : Spec.BinaryColumn m P jac tH) (hM : 2 ≤ z) : ∃ g : Fin (z + 1) → ℝ, g 0 = 0 ∧ ∑ w, g w = 1 ∧ ∀ (y : ℝ → ColState r 1 z),
    (∀ T, Spec.Solves colComp (fun _ u => m.rhs P tH cin u) 0 T y) →
    (∀ i w, w ≠ 0 → Tendsto (fun t => y t 0 i w) atTop (nhds (cin i))) →
    (∀ (k : Fin (r + 1)) i w, Tendsto (fun t => y t k.succ i w) atTop (nhds (![Q - q, q] i))) → ∀ i,
    Tendsto (fun T => P.v / P.L * tH * ∫ t in (0 : ℝ)..T, (cin i - y t 0 i (Fin.last z))) atTop
      (nhds (P.EBED * cin i + (1 - P.EBED) * ![Q - q, q] i - Spec.colContent P.EBED P.Wr g (y 0) i)) := by
  obtain ⟨g, hgi, hsum, hgt⟩ := axial_mean h.axial hM
  refine ⟨g, hgi, hsum, fun y hy hlq hbd i => ?_⟩
  have hW := (h.grid.wpos (Fin.last r)).ne'
  have hW3 : ∑ k, P.Wr k = 1 / 3 := by
    rw [h.grid.weights]
    exact (c17_positive_sum (Nat.succ_pos r) (radialNodes_inj h.grid.zeros.1 (fun i => (h.grid.zeros.2.1 i).2))
      (radialNodes_pos (fun i => (h.grid.zeros.2.1 i).1)) (by norm_num : (0:ℝ) < 3)).2
  have hlim : Tendsto (fun T => Spec.colContent P.EBED P.Wr g (y T) i) atTop
      (nhds (∑ w, g w * (P.EBED * cin i + (1 - P.EBED) * (3 * ∑ k : Fin (r + 1), P.Wr k * ![Q - q, q] i)))) := by
    unfold Spec.colContent
    refine tendsto_finsetSum _ fun w _ => ?_
    by_cases hw : w = 0
    · rw [hw, hgi]
      simp only [zero_mul]
      exact tendsto_const_nhds
    · refine ((((hlq i w hw).const_mul P.EBED).add ?_).const_mul (g w))
      refine ((tendsto_finsetSum _ fun k _ => (hbd k i w).const_mul (P.Wr k)).const_mul 3).const_mul _
  have hend : ∑ w, g w * (P.EBED * cin i + (1 - P.EBED) * (3 * ∑ k : Fin (r + 1), P.Wr k * ![Q - q, q] i)) =
      P.EBED * cin i + (1 - P.EBED) * ![Q - q, q] i := by
    rw [← Finset.sum_mul, hsum, ← Finset.sum_mul, hW3]
    ring
  rw [hend] at hlim
  refine (hlim.sub_const (Spec.colContent P.EBED P.Wr g (y 0) i)).congr' ?_
  filter_upwards [eventually_ge_atTop 0] with T hT
  have hco : IntervalIntegrable (fun t => y t 0 i (Fin.last z)) MeasureTheory.volume 0 T := by
    apply ContinuousOn.intervalIntegrable
    rw [Set.uIcc_of_le hT]
    exact solves_continuousOn (hy T) (0, i, Fin.last z)
  rw [c155_solutions m P (by omega) tH (fun _ => cin) hW h.bed.1.ne' hgi hgt i hT (hy T) intervalIntegrable_const,
    intervalIntegral.integral_sub intervalIntegrable_const hco]

end

/-- The hypotheses meet: a divalent ion the resin prefers ten to one, and a column that starts slightly off exhaustion. -/
example (m : ColModel) (r z : ℕ) (A : Fin (z + 1) → Fin (z + 1) → ℝ) (hA : Spec.AxialGrid z A) : ∃ (P : ColParams r 1 z) (q : ℝ) (y : ℝ → ColState r 1 z),
    P.K 1 = 10 ∧ P.val 1 = 2 ∧ 0 < q ∧ (∀ T, Spec.Solves colComp (fun _ u => m.rhs P 1 ![1, 2] u) 0 T y) ∧ y 0 1 1 0 ≠ q ∧
    Tendsto (fun t => y t 0 1 (Fin.last z)) atTop (nhds 2) ∧ Tendsto (fun t => y t 1 1 0) atTop (nhds q) := by
  obtain ⟨jac, B, W, g⟩ := beadGrid_exists r
  have hlast : Fin.last z ≠ 0 := fun e => by have := congrArg Fin.val e; have := axial_pos hA; simp at *; omega
  let P : ColParams r 1 z := ⟨1 / 2, 1, 1, 1, 5, 1 / 2, fun _ => 1, fun _ => 1, fun _ => 2, ![1, 10], ![1, 2], A, B, W⟩
  have hP : Spec.BinaryColumn m P jac 1 := ⟨g, hA, by show (0 : ℝ) < 1 / 2 ∧ (1 / 2 : ℝ) < 1; norm_num, ⟨one_pos, one_pos⟩, one_pos, one_pos,
    ⟨one_pos, one_pos⟩, fun _ => ⟨by show (0 : ℝ) ≤ 1 / 2; norm_num, by show (1 / 2 : ℝ) < 1; norm_num, by show (1 : ℝ) ≤ 2; norm_num⟩,
    ⟨rfl, by show (0 : ℝ) < 10; norm_num⟩, ⟨rfl, Or.inr rfl⟩⟩
  have hc : 0 < (![1, 2] : Fin 2 → ℝ) 0 ∧ 0 ≤ (![1, 2] : Fin 2 → ℝ) 1 := by
    show (0 : ℝ) < 1 ∧ (0 : ℝ) ≤ 2
    norm_num
  obtain ⟨q, hq⟩ := spent_exists (cin := ![1, 2]) (Q := 5) hP hc (by norm_num)
  have hq0 : 0 < q := by
    refine lt_of_le_of_ne hq.nonneg fun e => ?_
    have := hq.law 1
    simp only [load_div, ← e] at this
    have hl := loadDiv_pos hP
    have e1 : (10 : ℝ) * 2 * ((5 - 0) / loadDiv m P) ^ 2 = 0 / loadDiv m P * 1 ^ 2 := this
    have : 0 < (10 : ℝ) * 2 * ((5 - 0) / loadDiv m P) ^ 2 := by positivity
    rw [e1, zero_div, zero_mul] at this
    exact lt_irrefl _ this
  obtain ⟨δ1, hδ1, hrun⟩ := c261_run hP hc hq
  obtain ⟨δ2, hδ2, heither⟩ := c261_either hP hc hq
  set δ := min δ1 δ2 with hδ
  have hδ0 : 0 < δ := lt_min hδ1 hδ2
  let x : BedExc r z := (fun _ => δ, 0)
  have hx : ‖x‖ ≤ δ := by
    rw [norm_prod_le_iff]
    refine ⟨(pi_norm_le_iff_of_nonneg hδ0.le).2 fun _ => ?_, by show ‖(0 : ColExc r z)‖ ≤ δ; rw [norm_zero]; exact hδ0.le⟩
    show ‖δ‖ ≤ δ
    rw [Real.norm_eq_abs, abs_of_pos hδ0]
  set u := binBuild ![1, 2] 5 q ![1, 2] x with hu
  have hT : Spec.Totals (∑ i, (![1, 2] : Fin 2 → ℝ) i) 5 u := binBuild_totals _ _
  have hw : ∀ d, δ ≤ d → Spec.BinWithin ![1, 2] 5 q d u := fun d hd =>
    (binExc_norm (hδ0.le.trans hd) hT).1 (by rw [binExc_build]; exact hx.trans hd)
  obtain ⟨y, hy0, hy⟩ := hrun u hT (hw _ (min_le_left _ _))
  rcases heither y hy (by rw [hy0]; exact hT) with h | h
  · exact absurd (by rw [hy0]; exact hw _ (min_le_right _ _)) (h 0 le_rfl)
  · refine ⟨P, q, y, rfl, rfl, hq0, hy, ?_, h.1 1 _ hlast, h.2 0 1 0⟩
    rw [hy0]
    have : u 1 1 0 = q + δ := by
      rw [hu, show (1 : Fin (r + 2)) = (0 : Fin (r + 1)).succ from rfl]
      simp only [binBuild, binSecond, x, Fin.cases_succ, Fin.cases_zero, Fin.succ_ne_zero, false_and, if_false]
      exact if_neg (by decide)
    rw [this]
    intro e
    linarith

end WTM
