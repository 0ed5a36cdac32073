import Mathlib.Tactic
import Verif.Props.IexUnique

/-! Properties C232, C233: the order of the ions, and ions that are neither in the water nor on the resin. -/
set_option autoImplicit false
namespace WTM
open BigOperators Set

section
variable {r p p' z : ℕ}

/-! ### Columns -/

/-- The column of the ions `e 0, e 1, …`. -/
def Spec.pick (e : Fin (p + 1) → Fin (p' + 1)) (P : ColParams r p' z) : ColParams r p z where
  EBED := P.EBED
  L := P.L
  v := P.v
  rb := P.rb
  Q := P.Q
  EPOR := P.EPOR
  kL := P.kL ∘ e
  Ds := P.Ds ∘ e
  Dp := P.Dp ∘ e
  K := P.K ∘ e
  val := P.val ∘ e
  Az := P.Az
  Br := P.Br
  Wr := P.Wr

/-- The state of those ions. -/
def Spec.pickState (e : Fin (p + 1) → Fin (p' + 1)) (u : ColState r p' z) : ColState r p z := fun a i w => u a (e i) w

/-- `e` lists different ions, the presaturant first. -/
def Spec.Listing (e : Fin (p + 1) → Fin (p' + 1)) : Prop := Function.Injective e ∧ e 0 = 0

/-- Both lists are treated by the same formula: both or neither have a divalent ion; or all ions of the shorter one are monovalent
with a presaturant of selectivity 1, in which case the two formulas agree at loadings with a positive presaturant and a positive
sum of the loadings over the selectivities. -/
def Spec.FormulaKept (e : Fin (p + 1) → Fin (p' + 1)) (K : Fin (p' + 1) → ℝ) (val : Fin (p' + 1) → ℕ) (q : Fin (p' + 1) → ℝ) :
    Prop :=
  ((∃ j, val j = 2) → ∃ i, val (e i) = 2) ∨
    (K 0 = 1 ∧ (∀ i, val (e i) = 1) ∧ 0 < q 0 ∧ 0 < ∑ i, q (e i) / K (e i))

theorem sum_listing {e : Fin (p + 1) → Fin (p' + 1)} (he : Function.Injective e) {g : Fin (p' + 1) → ℝ}
    (h : ∀ j, j ∉ range e → g j = 0) : ∑ j, g j = ∑ i, g (e i) :=
  (Fintype.sum_of_injective e he (fun i => g (e i)) g h fun _ => rfl).symm

theorem implicit_zero (f : Fin (p + 1) → ℝ) : implicitRef f 0 = f 0 - ∑ j, f j := by
  unfold implicitRef
  rw [if_pos rfl, Fin.sum_univ_succ]
  ring

theorem off_ne_zero {e : Fin (p + 1) → Fin (p' + 1)} (he : Spec.Listing e) {j : Fin (p' + 1)} (hj : j ∉ range e) : j ≠ 0 :=
  fun h => hj ⟨0, he.2.trans h.symm⟩

theorem ne_zero_iff {e : Fin (p + 1) → Fin (p' + 1)} (he : Spec.Listing e) (i : Fin (p + 1)) : e i = 0 ↔ i = 0 :=
  ⟨fun h => he.1 (h.trans he.2.symm), fun h => h ▸ he.2⟩

theorem implicit_listing {e : Fin (p + 1) → Fin (p' + 1)} (he : Spec.Listing e) {f : Fin (p' + 1) → ℝ}
    (h : ∀ j, j ∉ range e → f j = 0) (i : Fin (p + 1)) : implicitRef f (e i) = implicitRef (fun i => f (e i)) i := by
  by_cases hi : i = 0
  · subst hi
    rw [he.2, implicit_zero, implicit_zero, sum_listing he.1 h, he.2]
  · unfold implicitRef
    rw [if_neg hi, if_neg fun h => hi ((ne_zero_iff he i).1 h)]

theorem implicit_off {e : Fin (p + 1) → Fin (p' + 1)} (he : Spec.Listing e) {f : Fin (p' + 1) → ℝ} {j : Fin (p' + 1)}
    (hj : j ∉ range e) (h : f j = 0) : implicitRef f j = 0 := by
  unfold implicitRef
  rw [if_neg (off_ne_zero he hj), h]

section
variable {e : Fin (p + 1) → Fin (p' + 1)} {K : Fin (p' + 1) → ℝ} {val : Fin (p' + 1) → ℕ} {q : Fin (p' + 1) → ℝ}

theorem eqAA_listing (he : Spec.Listing e) (h : ∀ j, j ∉ range e → q j = 0) :
    eqAA K val q = eqAA (K ∘ e) (val ∘ e) (q ∘ e) := by
  unfold eqAA
  rw [sum_listing he.1 (fun j hj => by rw [h j hj]; simp)]
  simp only [Function.comp_apply, he.2]

theorem eqBB_listing (he : Spec.Listing e) (h : ∀ j, j ∉ range e → q j = 0) :
    eqBB K val q = eqBB (K ∘ e) (val ∘ e) (q ∘ e) := by
  unfold eqBB
  rw [sum_listing he.1 (fun j hj => by rw [h j hj]; simp)]
  simp only [Function.comp_apply, he.2, ne_eq, ne_zero_iff he]

theorem ceqOfRef_listing (he : Spec.Listing e) (c : ℝ) (i : Fin (p + 1)) :
    ceqOfRef K val q c (e i) = ceqOfRef (K ∘ e) (val ∘ e) (q ∘ e) c i := by
  unfold ceqOfRef
  simp only [ne_zero_iff he, Function.comp_apply, he.2]

theorem ceqDv_listing (he : Spec.Listing e) (h : ∀ j, j ∉ range e → q j = 0) (CT : ℝ) (i : Fin (p + 1)) :
    ceqDv K val q CT (e i) = ceqDv (K ∘ e) (val ∘ e) (q ∘ e) CT i := by
  unfold ceqDv refConc
  rw [ceqOfRef_listing he, eqAA_listing he h, eqBB_listing he h]

theorem ceqMv_listing (he : Spec.Listing e) (h : ∀ j, j ∉ range e → q j = 0) (CT : ℝ) (i : Fin (p + 1)) :
    ceqMv K q CT (e i) = ceqMv (K ∘ e) (q ∘ e) CT i := by
  unfold ceqMv
  rw [sum_listing he.1 (fun j hj => by rw [h j hj]; simp)]
  rfl

/-- With monovalent ions the two formulas agree wherever the presaturant and the weighted sum are positive. -/
theorem dv_eq_mv {K q : Fin (p + 1) → ℝ} {val : Fin (p + 1) → ℕ} (hK : K 0 = 1) (hv : ∀ i, val i = 1) (hq : 0 < q 0)
    (hs : 0 < ∑ i, q i / K i) (CT : ℝ) : ceqDv K val q CT = ceqMv K q CT := by
  have ha : eqAA K val q = 0 := by unfold eqAA; simp [hv]
  have hS : ∑ j, q j / K j = q 0 * eqBB K val q := by
    unfold eqBB
    rw [mul_add, mul_one, mul_div_cancel₀ _ hq.ne']
    have : q 0 = ∑ i : Fin (p + 1), if i = 0 then q 0 else 0 := by simp
    conv_rhs => rw [this]
    rw [← Finset.sum_add_distrib]
    refine Finset.sum_congr rfl fun i _ => ?_
    by_cases hi : i = 0
    · subst hi; simp [hK]
    · simp [hi, hv]
  have hb : 0 < eqBB K val q := by
    rw [hS] at hs
    exact (mul_pos_iff_of_pos_left hq).1 hs
  have hr : refConc K val q CT = CT / eqBB K val q := by
    unfold refConc
    simp only [ha]
    rw [show eqBB K val q ^ 2 - 4 * 0 * -CT = eqBB K val q ^ 2 by ring, Real.sqrt_sq hb.le]
    have := hb.ne'
    rw [show -eqBB K val q - eqBB K val q = -(2 * eqBB K val q) by ring]
    field_simp
  funext i
  unfold ceqDv ceqMv
  rw [mv_denom, hS, hr]
  unfold ceqOfRef
  have := hq.ne'
  have := hb.ne'
  by_cases hi : i = 0
  · subst hi
    rw [if_pos rfl, hK]
    field_simp
  · rw [if_neg hi, hv, pow_one]
    by_cases hk : K i = 0
    · simp [hk]
    · field_simp

theorem ceq_listing (he : Spec.Listing e) (h : ∀ j, j ∉ range e → q j = 0) (hf : Spec.FormulaKept e K val q) (CT : ℝ)
    (i : Fin (p + 1)) : ceq K val q CT (e i) = ceq (K ∘ e) (val ∘ e) (q ∘ e) CT i := by
  unfold ceq
  by_cases h2 : ∃ j, val j = 2
  · rw [if_pos h2]
    by_cases h3 : ∃ i, (val ∘ e) i = 2
    · rw [if_pos h3, ceqDv_listing he h]
    · rw [if_neg h3]
      rcases hf with hf | ⟨hK, hv, hq, hs⟩
      · exact absurd (hf h2) h3
      · rw [ceqDv_listing he h, dv_eq_mv (K := K ∘ e) (q := q ∘ e) (val := val ∘ e) (by simpa [he.2] using hK) hv
          (by simpa [he.2] using hq) hs]
  · have h3 : ¬ ∃ i, (val ∘ e) i = 2 := fun ⟨i, hi⟩ => h2 ⟨e i, hi⟩
    rw [if_neg h2, if_neg h3, ceqMv_listing he h]

theorem ceq_off (he : Spec.Listing e) {j : Fin (p' + 1)} (hj : j ∉ range e) (h : q j = 0) (CT : ℝ) : ceq K val q CT j = 0 := by
  unfold ceq
  split
  · unfold ceqDv ceqOfRef
    rw [if_neg (off_ne_zero he hj), h]
    simp
  · unfold ceqMv
    rw [h]
    simp

end

/-- Nothing of the ions that are not listed is in the feed, in the water or on the resin. -/
def Spec.OthersAbsent (e : Fin (p + 1) → Fin (p' + 1)) (cin : Fin (p' + 1) → ℝ) (u : ColState r p' z) : Prop :=
  ∀ j, j ∉ range e → cin j = 0 ∧ ∀ a w, u a j w = 0

theorem assemble_listing (e : Fin (p + 1) → Fin (p' + 1)) (P : ColParams r p' z) {tH : ℝ}
    {dC J : Fin (p' + 1) → Fin (z + 1) → ℝ} {dq : Fin (r + 1) → Fin (p' + 1) → Fin (z + 1) → ℝ}
    {dC' J' : Fin (p + 1) → Fin (z + 1) → ℝ} {dq' : Fin (r + 1) → Fin (p + 1) → Fin (z + 1) → ℝ}
    (h1 : ∀ i w, dC (e i) w = dC' i w) (h2 : ∀ i w, J (e i) w = J' i w) (h3 : ∀ k i w, dq k (e i) w = dq' k i w)
    (a : Fin (r + 2)) (i : Fin (p + 1)) (w : Fin (z + 1)) :
    assemble P tH dC J dq a (e i) w = assemble (Spec.pick e P) tH dC' J' dq' a i w := by
  unfold assemble
  refine Fin.cases ?_ (fun k => ?_) a
  · simp only [Fin.cases_zero, h1]
  · simp only [Fin.cases_succ, h2, h3]
    rfl

theorem assemble_off (P : ColParams r p' z) {tH : ℝ} {dC J : Fin (p' + 1) → Fin (z + 1) → ℝ}
    {dq : Fin (r + 1) → Fin (p' + 1) → Fin (z + 1) → ℝ} {j : Fin (p' + 1)} (h1 : ∀ w, dC j w = 0) (h2 : ∀ w, J j w = 0)
    (h3 : ∀ k w, dq k j w = 0) (a : Fin (r + 2)) (w : Fin (z + 1)) : assemble P tH dC J dq a j w = 0 := by
  unfold assemble
  refine Fin.cases ?_ (fun k => ?_) a
  · simp [h1]
  · simp [h2, h3]

theorem setInlet_listing (e : Fin (p + 1) → Fin (p' + 1)) (u : ColState r p' z) (cin : Fin (p' + 1) → ℝ) (a : Fin (r + 2))
    (i : Fin (p + 1)) (w : Fin (z + 1)) :
    setInlet u cin a (e i) w = setInlet (Spec.pickState e u) (cin ∘ e) a i w := rfl

theorem setInlet_off {e : Fin (p + 1) → Fin (p' + 1)} {u : ColState r p' z} {cin : Fin (p' + 1) → ℝ}
    (h : Spec.OthersAbsent e cin u) {j : Fin (p' + 1)} (hj : j ∉ range e) (a : Fin (r + 2)) (w : Fin (z + 1)) :
    setInlet u cin a j w = 0 := by
  unfold setInlet
  split
  · exact (h j hj).1
  · exact (h j hj).2 a w

/-- The rates of the listed ions are those of the column of the listed ions; the others stay absent. -/
theorem rhs_listing (m : ColModel) {e : Fin (p + 1) → Fin (p' + 1)} (he : Spec.Listing e) (P : ColParams r p' z) (tH : ℝ)
    {cin : Fin (p' + 1) → ℝ} {u : ColState r p' z} (hab : Spec.OthersAbsent e cin u)
    (hf : ∀ (k : Fin (r + 1)) w, Spec.FormulaKept e P.K P.val (fun j => m.load P (u k.succ j w))) :
    (∀ a i w, m.rhs P tH cin u a (e i) w = m.rhs (Spec.pick e P) tH (cin ∘ e) (Spec.pickState e u) a i w) ∧
    ∀ j, j ∉ range e → ∀ a w, m.rhs P tH cin u a j w = 0 := by
  have htot : ∀ w, ∑ j, setInlet u cin 0 j w = ∑ i, setInlet (Spec.pickState e u) (cin ∘ e) 0 i w := by
    intro w
    rw [sum_listing he.1 (fun j hj => setInlet_off hab hj 0 w)]
    rfl
  have hbead : ∀ (k : Fin (r + 1)) j w, setInlet u cin k.succ j w = u k.succ j w := setInlet_bead u cin
  have hlast : ∀ j w, setInlet u cin (Fin.last (r + 1)) j w = u (Fin.last r).succ j w := fun j w => by
    rw [← Fin.succ_last]; exact hbead _ j w
  -- flux from equilibrium concentrations that agree
  have flux : ∀ (Ceq : Fin (z + 1) → Fin (p' + 1) → ℝ) (Ceq' : Fin (z + 1) → Fin (p + 1) → ℝ), (∀ w i, Ceq w (e i) = Ceq' w i) →
      (∀ w j, j ∉ range e → Ceq w j = 0) →
      (∀ i w, fluxJ P.kL (fun j => setInlet u cin 0 j w) (Ceq w) (e i) =
        fluxJ (Spec.pick e P).kL (fun i => setInlet (Spec.pickState e u) (cin ∘ e) 0 i w) (Ceq' w) i) ∧
      ∀ j, j ∉ range e → ∀ w, fluxJ P.kL (fun j => setInlet u cin 0 j w) (Ceq w) j = 0 := by
    intro Ceq Ceq' h1 h2
    have h0 : ∀ w j, j ∉ range e → -P.kL j * (setInlet u cin 0 j w - Ceq w j) = 0 := by
      intro w j hj
      rw [setInlet_off hab hj, h2 w j hj]
      ring
    constructor
    · intro i w
      unfold fluxJ
      rw [implicit_listing he (fun j hj => h0 w j hj)]
      simp only [h1]
      rfl
    · intro j hj w
      unfold fluxJ
      exact implicit_off he hj (h0 w j hj)
  have liq : ∀ (J : Fin (p' + 1) → Fin (z + 1) → ℝ) (J' : Fin (p + 1) → Fin (z + 1) → ℝ), (∀ i w, J (e i) w = J' i w) →
      (∀ j, j ∉ range e → ∀ w, J j w = 0) →
      (∀ i w, liqRate P tH (setInlet u cin 0) J (e i) w =
        liqRate (Spec.pick e P) tH (setInlet (Spec.pickState e u) (cin ∘ e) 0) J' i w) ∧
      ∀ j, j ∉ range e → ∀ w, liqRate P tH (setInlet u cin 0) J j w = 0 := by
    intro J J' h1 h2
    constructor
    · intro i w
      unfold liqRate
      rw [h1]
      rfl
    · intro j hj w
      unfold liqRate
      simp [setInlet_off hab hj, h2 j hj]
  have zero_load : ∀ (k : Fin (r + 1)) w j, j ∉ range e → m.load P (u k.succ j w) = 0 := by
    intro k w j hj
    rw [(hab j hj).2]
    cases m <;> simp [ColModel.load]
  cases m
  · -- HSDM
    have ce := fun w => ceq_listing (K := P.K) (val := P.val) he (fun j hj => zero_load (Fin.last r) w j hj) (hf (Fin.last r) w)
      (∑ j, setInlet u cin 0 j w)
    have co := fun w j hj => ceq_off (K := P.K) (val := P.val)
      (q := fun j => ColModel.hsdm.load P (u (Fin.last r).succ j w)) he (j := j) hj (zero_load (Fin.last r) w j hj)
      (∑ j, setInlet u cin 0 j w)
    obtain ⟨j1, j2⟩ := flux (fun w => ceq P.K P.val (fun j => setInlet u cin (Fin.last (r + 1)) j w) (∑ j, setInlet u cin 0 j w))
      (fun w => ceq (Spec.pick e P).K (Spec.pick e P).val
        (fun i => setInlet (Spec.pickState e u) (cin ∘ e) (Fin.last (r + 1)) i w)
        (∑ i, setInlet (Spec.pickState e u) (cin ∘ e) 0 i w))
      (fun w i => by
        have := ce w i
        simp only [ColModel.load] at this
        simp only [hlast]
        rw [this, htot]
        congr 1)
      (fun w j hj => by
        have := co w j hj
        simp only [ColModel.load] at this
        simp only [hlast]
        exact this)
    replace j1 : ∀ i w, ColModel.hsdm.flux P (setInlet u cin) (e i) w =
        ColModel.hsdm.flux (Spec.pick e P) (setInlet (Spec.pickState e u) (cin ∘ e)) i w := j1
    replace j2 : ∀ j, j ∉ range e → ∀ w, ColModel.hsdm.flux P (setInlet u cin) j w = 0 := j2
    obtain ⟨l1, l2⟩ := liq _ _ j1 j2
    have b0 : ∀ (k : Fin (r + 1)) w j, j ∉ range e →
        P.Ds j * tH / P.rb ^ 2 * ∑ l, P.Br k l * setInlet u cin (Fin.succ l) j w = 0 := by
      intro k w j hj
      simp [setInlet_off hab hj]
    constructor
    · intro a i w
      rw [rhs_eq, rhs_eq]
      refine assemble_listing e P l1 j1 (fun k i w => ?_) a i w
      show hsdmBead P tH _ k (e i) w = hsdmBead _ tH _ k i w
      unfold hsdmBead
      rw [implicit_listing he (fun j hj => b0 k w j hj)]
      rfl
    · intro j hj a w
      rw [rhs_eq]
      refine assemble_off P (l2 j hj) (j2 j hj) (fun k w => ?_) a w
      show hsdmBead P tH _ k j w = 0
      unfold hsdmBead
      exact implicit_off he hj (b0 k w j hj)
  · -- PSDM
    have ce := fun k w => ceq_listing (K := P.K) (val := P.val) he (fun j hj => zero_load k w j hj) (hf k w)
      (∑ j, setInlet u cin 0 j w)
    have co := fun (k : Fin (r + 1)) w j hj => ceq_off (K := P.K) (val := P.val)
      (q := fun j => ColModel.psdm.load P (u k.succ j w)) he (j := j) hj (zero_load k w j hj)
      (∑ j, setInlet u cin 0 j w)
    simp only [ColModel.load] at ce co
    obtain ⟨j1, j2⟩ := flux
      (fun w => ceq P.K P.val (fun j => setInlet u cin (Fin.last (r + 1)) j w / (1 - P.EPOR)) (∑ j, setInlet u cin 0 j w))
      (fun w => ceq (Spec.pick e P).K (Spec.pick e P).val
        (fun i => setInlet (Spec.pickState e u) (cin ∘ e) (Fin.last (r + 1)) i w / (1 - (Spec.pick e P).EPOR))
        (∑ i, setInlet (Spec.pickState e u) (cin ∘ e) 0 i w))
      (fun w i => by
        simp only [hlast]
        rw [ce, htot]
        congr 1)
      (fun w j hj => by
        simp only [hlast]
        exact co _ w j hj)
    replace j1 : ∀ i w, ColModel.psdm.flux P (setInlet u cin) (e i) w =
        ColModel.psdm.flux (Spec.pick e P) (setInlet (Spec.pickState e u) (cin ∘ e)) i w := j1
    replace j2 : ∀ j, j ∉ range e → ∀ w, ColModel.psdm.flux P (setInlet u cin) j w = 0 := j2
    obtain ⟨l1, l2⟩ := liq _ _ j1 j2
    have pc : ∀ k i w, poreConc P (setInlet u cin) k (e i) w =
        poreConc (Spec.pick e P) (setInlet (Spec.pickState e u) (cin ∘ e)) k i w := by
      intro k i w
      unfold poreConc
      simp only [hbead]
      rw [ce, htot]
      congr 1
    have po : ∀ k w j, j ∉ range e → poreConc P (setInlet u cin) k j w = 0 := by
      intro k w j hj
      unfold poreConc
      simp only [hbead]
      exact co k w j hj
    have b0 : ∀ (k : Fin (r + 1)) w j, j ∉ range e →
        tH * (P.EPOR * (P.Dp j - P.Ds j) * (∑ l, P.Br k l * poreConc P (setInlet u cin) l j w) +
          P.Ds j * ∑ l, P.Br k l * setInlet u cin (Fin.succ l) j w) / P.rb ^ 2 = 0 := by
      intro k w j hj
      simp [setInlet_off hab hj, po _ _ j hj]
    constructor
    · intro a i w
      rw [rhs_eq, rhs_eq]
      refine assemble_listing e P l1 j1 (fun k i w => ?_) a i w
      show psdmBead P tH _ k (e i) w = psdmBead _ tH _ k i w
      unfold psdmBead
      rw [implicit_listing he (fun j hj => b0 k w j hj)]
      simp only [pc]
      rfl
    · intro j hj a w
      rw [rhs_eq]
      refine assemble_off P (l2 j hj) (j2 j hj) (fun k w => ?_) a w
      show psdmBead P tH _ k j w = 0
      unfold psdmBead
      exact implicit_off he hj (b0 k w j hj)

theorem tHalf_listing {e : Fin (p + 1) → Fin (p' + 1)} (he : Spec.Listing e) (P : ColParams r p' z) {Cin : Fin (p' + 1) → ℝ}
    (h : ∀ j, j ∉ range e → Cin j = 0) : tHalf P Cin = tHalf (Spec.pick e P) (Cin ∘ e) := by
  unfold tHalf
  rw [sum_listing he.1 h]
  rfl

theorem colInit_listing {e : Fin (p + 1) → Fin (p' + 1)} (he : Spec.Listing e) (Q : ℝ) {Cin : Fin (p' + 1) → ℝ}
    (h : ∀ j, j ∉ range e → Cin j = 0) :
    (∀ a i w, (colInit Q Cin none : ColState r p' z) a (e i) w = (colInit Q (Cin ∘ e) none : ColState r p z) a i w) ∧
    ∀ j, j ∉ range e → ∀ a w, (colInit Q Cin none : ColState r p' z) a j w = 0 := by
  constructor
  · intro a i w
    unfold colInit
    simp only [ne_zero_iff he, sum_listing he.1 h, Function.comp_apply]
  · intro j hj a w
    unfold colInit
    simp [off_ne_zero he hj, h j hj]

/-! ### Batches -/

/-- The batch of the ions `e 0, e 1, …`. -/
def Spec.pickBatch (e : Fin (p + 1) → Fin (p' + 1)) (P : BatchParams r p') : BatchParams r p where
  RHOP := P.RHOP
  Qm := P.Qm
  EPOR := P.EPOR
  VR := P.VR
  VL := P.VL
  Ds := P.Ds
  Dp := P.Dp
  kL := P.kL
  rb := P.rb
  C0 := P.C0 ∘ e
  K := P.K ∘ e
  val := P.val ∘ e
  Br := P.Br
  Wr := P.Wr

/-- The state of those ions in a batch. -/
def Spec.pickBatchState (e : Fin (p + 1) → Fin (p' + 1)) (u : BatchState r p') : BatchState r p := fun a i => u a (e i)

theorem ceqB_listing {e : Fin (p + 1) → Fin (p' + 1)} {K : Fin (p' + 1) → ℝ} {val : Fin (p' + 1) → ℕ} {q : Fin (p' + 1) → ℝ}
    (he : Spec.Listing e) (h : ∀ j, j ∉ range e → q j = 0) (hv : (∃ j, val j = 2) → ∃ i, val (e i) = 2) (CT : ℝ)
    (i : Fin (p + 1)) : ceqB K val q CT (e i) = ceqB (K ∘ e) (val ∘ e) (q ∘ e) CT i := by
  unfold ceqB
  by_cases h2 : ∃ j, val j = 2
  · have h3 : ∃ i, (val ∘ e) i = 2 := hv h2
    rw [if_pos h2, if_pos h3, ceqOfRef_listing he, eqAA_listing he h, eqBB_listing he h]
  · have h3 : ¬ ∃ i, (val ∘ e) i = 2 := fun ⟨i, hi⟩ => h2 ⟨e i, hi⟩
    rw [if_neg h2, if_neg h3, ceqMv_listing he h]

theorem ceqB_off {e : Fin (p + 1) → Fin (p' + 1)} {K : Fin (p' + 1) → ℝ} {val : Fin (p' + 1) → ℕ} {q : Fin (p' + 1) → ℝ}
    (he : Spec.Listing e) {j : Fin (p' + 1)} (hj : j ∉ range e) (h : q j = 0) (CT : ℝ) : ceqB K val q CT j = 0 := by
  unfold ceqB
  split
  · unfold ceqOfRef
    rw [if_neg (off_ne_zero he hj), h]
    simp
  · unfold ceqMv
    rw [h]
    simp

/-- No equilibrium of the batch divides by zero. -/
def BatchModel.Cond (m : BatchModel) (P : BatchParams r p) (u : BatchState r p) : Prop :=
  match m with
  | .hsdm => (∃ i, P.val i = 2) → eqAA P.K P.val (u (Fin.last (r + 1))) ≠ 0
  | .psdm => ∀ k : Fin (r + 1), (∃ i, P.val i = 2) → eqAA P.K P.val (fun i => u k.succ i / (1 - P.EPOR)) ≠ 0

theorem ceqBatch_none {K : Fin (p + 1) → ℝ} {val : Fin (p + 1) → ℕ} {q : Fin (p + 1) → ℝ} {CT : ℝ}
    (h : ¬ ((∃ i, val i = 2) → eqAA K val q ≠ 0)) : ceqBatch K val q CT = none := by
  push Not at h
  unfold ceqBatch refConcBatch
  rw [if_pos h.1]
  simp [h.2]

theorem rhs_none (m : BatchModel) (P : BatchParams r p) {u : BatchState r p} (h : ¬ m.Cond P u) : m.rhs P u = none := by
  cases m
  · simp only [BatchModel.rhs, hsdmBatchRhs]
    rw [ceqBatch_none h]
    rfl
  · simp only [BatchModel.rhs, psdmBatchRhs]
    refine dif_neg fun hs => h fun k => ?_
    by_contra hk
    have := hs k
    rw [ceqBatch_none hk] at this
    cases this

/-- The rates of a batch: listed ions and the others. -/
theorem batch_listing (m : BatchModel) {e : Fin (p + 1) → Fin (p' + 1)} (he : Spec.Listing e) (P : BatchParams r p')
    {u : BatchState r p'} (hc : ∀ j, j ∉ range e → P.C0 j = 0) (hu : ∀ j, j ∉ range e → ∀ a, u a j = 0)
    (hv : (∃ j, P.val j = 2) → ∃ i, P.val (e i) = 2) :
    m.rhs (Spec.pickBatch e P) (Spec.pickBatchState e u) = (m.rhs P u).map (Spec.pickBatchState e) ∧
    ∀ d, m.rhs P u = some d → ∀ j, j ∉ range e → ∀ a, d a j = 0 := by
  have hv' : (∃ j, P.val j = 2) ↔ ∃ i, (Spec.pickBatch e P).val i = 2 := ⟨hv, fun ⟨i, hi⟩ => ⟨e i, hi⟩⟩
  have hC : ∑ j, P.C0 j = ∑ i, (Spec.pickBatch e P).C0 i := sum_listing he.1 hc
  have hcond : m.Cond (Spec.pickBatch e P) (Spec.pickBatchState e u) ↔ m.Cond P u := by
    cases m
    · unfold BatchModel.Cond
      simp only
      rw [← hv', eqAA_listing (K := P.K) (val := P.val) he (fun j hj => hu j hj _)]
      rfl
    · unfold BatchModel.Cond
      simp only
      refine forall_congr' fun k => ?_
      rw [← hv', eqAA_listing (K := P.K) (val := P.val) he (fun j hj => by rw [hu j hj, zero_div])]
      rfl
  have hlin : ∀ (k : Fin (r + 1)) j, j ∉ range e → ∑ l, P.Br k l * u (Fin.succ l) j = 0 := by
    intro k j hj
    simp [hu j hj]
  have hfield : (∀ a i, m.field P u a (e i) = m.field (Spec.pickBatch e P) (Spec.pickBatchState e u) a i) ∧
      ∀ j, j ∉ range e → ∀ a, m.field P u a j = 0 := by
    cases m
    · have c1 := ceqB_listing (K := P.K) (val := P.val) he (fun j hj => hu j hj (Fin.last (r + 1))) hv (∑ j, P.C0 j)
      have c2 := fun j hj => ceqB_off (K := P.K) (val := P.val) he (j := j) hj (hu j hj (Fin.last (r + 1))) (∑ j, P.C0 j)
      constructor
      · intro a i
        unfold BatchModel.field batchAssemble
        simp only [c1, ← hC]
        rfl
      · intro j hj a
        unfold BatchModel.field batchAssemble
        refine Fin.cases ?_ (fun k => ?_) a
        · simp [hu j hj, c2 j hj]
        · simp [hu j hj, c2 j hj]
    · have c1 := fun k : Fin (r + 1) => ceqB_listing (K := P.K) (val := P.val) (q := fun j => u k.succ j / (1 - P.EPOR)) he
        (fun j hj => by rw [hu j hj, zero_div]) hv (∑ j, P.C0 j)
      have c2 := fun (k : Fin (r + 1)) j hj => ceqB_off (K := P.K) (val := P.val) (q := fun j => u k.succ j / (1 - P.EPOR)) he
        (j := j) hj (by rw [hu j hj, zero_div]) (∑ j, P.C0 j)
      constructor
      · intro a i
        unfold BatchModel.field batchAssemble
        simp only [c1, ← hC]
        rfl
      · intro j hj a
        unfold BatchModel.field batchAssemble
        have c3 := c2 (Fin.last r) j hj
        rw [Fin.succ_last] at c3
        refine Fin.cases ?_ (fun k => ?_) a
        · simp [hu j hj, c3]
        · simp [hu j hj, c2 _ j hj, c3]
  by_cases h : m.Cond P u
  · have h1 : m.rhs P u = some (m.field P u) := rhs_field m P h
    have h2 : m.rhs (Spec.pickBatch e P) (Spec.pickBatchState e u) =
        some (m.field (Spec.pickBatch e P) (Spec.pickBatchState e u)) := rhs_field m _ (hcond.2 h)
    rw [h1, h2]
    refine ⟨?_, fun d hd j hj a => ?_⟩
    · rw [Option.map_some]
      congr 1
      funext a i
      exact (hfield.1 a i).symm
    · rw [← Option.some.inj hd]
      exact hfield.2 j hj a
  · rw [rhs_none m P h, rhs_none m _ (fun h' => h (hcond.1 h'))]
    exact ⟨rfl, fun d hd => by cases hd⟩

/-- The start of a batch: as many divalent ions and the same ones. -/
theorem batchInit_listing {e : Fin (p + 1) → Fin (p' + 1)} (he : Spec.Listing e) (P : BatchParams r p')
    (hc : ∀ j, j ∉ range e → P.C0 j = 0) (hv : ∀ j, j ∉ range e → P.val j ≠ 2) :
    (∀ a i, batchInit P a (e i) = batchInit (Spec.pickBatch e P) a i) ∧ ∀ j, j ∉ range e → ∀ a, batchInit P a j = 0 := by
  have h2 : (∃ j, P.val j = 2) ↔ ∃ i, (Spec.pickBatch e P).val i = 2 := by
    constructor
    · rintro ⟨j, hj⟩
      by_cases hr : j ∈ range e
      · obtain ⟨i, rfl⟩ := hr
        exact ⟨i, hj⟩
      · exact absurd hj (hv j hr)
    · rintro ⟨i, hi⟩
      exact ⟨e i, hi⟩
  have hcard : (Finset.univ.filter (fun j => P.val j = 2)).card =
      (Finset.univ.filter (fun i => (Spec.pickBatch e P).val i = 2)).card := by
    symm
    refine Finset.card_bij (fun i _ => e i) (fun i hi => ?_) (fun i _ i' _ h => he.1 h) (fun j hj => ?_)
    · exact Finset.mem_filter.2 ⟨Finset.mem_univ _, (Finset.mem_filter.1 hi).2⟩
    · have hj2 : P.val j = 2 := by simpa using hj
      by_cases hr : j ∈ range e
      · obtain ⟨i, rfl⟩ := hr
        exact ⟨i, Finset.mem_filter.2 ⟨Finset.mem_univ _, hj2⟩, rfl⟩
      · exact absurd hj2 (hv j hr)
  constructor
  · intro a i
    unfold batchInit
    simp only [hcard, h2, ne_zero_iff he]
    rfl
  · intro j hj a
    unfold batchInit
    simp [hc j hj, off_ne_zero he hj, hv j hj]

/-! ### C232 -/

theorem perm_listing {σ : Equiv.Perm (Fin (p + 1))} (h : σ 0 = 0) : Spec.Listing σ := ⟨σ.injective, h⟩

/-- C232. Listing the ions in another order, the presaturant still first, gives `diffun` of the columns the same rates in that
order, the same time scale and the same start. -/
theorem c232_column (m : ColModel) (σ : Equiv.Perm (Fin (p + 1))) (h0 : σ 0 = 0) (P : ColParams r p z) (tH : ℝ)
    (cin : Fin (p + 1) → ℝ) (u : ColState r p z) :
    m.rhs (Spec.pick σ P) tH (cin ∘ σ) (Spec.pickState σ u) = Spec.pickState σ (m.rhs P tH cin u) ∧
    tHalf (Spec.pick σ P) (cin ∘ σ) = tHalf P cin ∧
    (colInit P.Q (cin ∘ σ) none : ColState r p z) = Spec.pickState σ (colInit P.Q cin none) := by
  have hr : ∀ j, j ∉ range σ → False := fun j hj => hj (σ.surjective j)
  refine ⟨?_, ?_, ?_⟩
  · funext a i w
    exact ((rhs_listing m (perm_listing h0) P tH (fun j hj => (hr j hj).elim)
      (fun k w => Or.inl fun ⟨j, hj⟩ => ⟨σ.symm j, by simpa using hj⟩)).1 a i w).symm
  · exact (tHalf_listing (perm_listing h0) P fun j hj => (hr j hj).elim).symm
  · funext a i w
    exact ((colInit_listing (perm_listing h0) P.Q fun j hj => (hr j hj).elim).1 a i w).symm

/-- C232. So the run of every ion is the same, whatever the order. -/
theorem c232_run (m : ColModel) (σ : Equiv.Perm (Fin (p + 1))) (h0 : σ 0 = 0) (P : ColParams r p z) (tH : ℝ)
    {cin : ℝ → Fin (p + 1) → ℝ} {t0 t1 : ℝ} (hc : ContinuousOn cin (Icc t0 t1)) {y y' : ℝ → ColState r p z}
    (hy : Spec.Solves colComp (fun t u => m.rhs P tH (cin t) u) t0 t1 y)
    (hy' : Spec.Solves colComp (fun t u => m.rhs (Spec.pick σ P) tH (cin t ∘ σ) u) t0 t1 y')
    (hst : y' t0 = Spec.pickState σ (y t0))
    (hreg : ∀ t ∈ Ico t0 t1, m.Regular (Spec.pick σ P) (cin t ∘ σ) (y' t)) :
    ∀ t ∈ Icc t0 t1, ∀ a i w, y' t a i w = y t a (σ i) w := by
  have hz : Spec.Solves colComp (fun t u => m.rhs (Spec.pick σ P) tH (cin t ∘ σ) u) t0 t1 (fun t => Spec.pickState σ (y t)) := by
    intro t ht a
    have := hy t ht (a.1, σ a.2.1, a.2.2)
    simp only [(c232_column m σ h0 P tH (cin t) (y t)).1]
    exact this
  have hcσ : ContinuousOn (fun t => cin t ∘ σ) (Icc t0 t1) := by
    rw [continuousOn_pi] at hc ⊢
    exact fun i => hc (σ i)
  intro t ht a i w
  have := c209_unique m (Spec.pick σ P) tH hcσ hy' hz hst hreg t ht
  rw [this]
  rfl

/-- C232. The same for `diffun` and the start of the batches. -/
theorem c232_batch (m : BatchModel) (σ : Equiv.Perm (Fin (p + 1))) (h0 : σ 0 = 0) (P : BatchParams r p) (u : BatchState r p) :
    m.rhs (Spec.pickBatch σ P) (Spec.pickBatchState σ u) = (m.rhs P u).map (Spec.pickBatchState σ) ∧
    batchInit (Spec.pickBatch σ P) = Spec.pickBatchState σ (batchInit P) := by
  have hr : ∀ j, j ∉ range σ → False := fun j hj => hj (σ.surjective j)
  refine ⟨(batch_listing m (perm_listing h0) P (fun j hj => (hr j hj).elim) (fun j hj => (hr j hj).elim)
    (fun ⟨j, hj⟩ => ⟨σ.symm j, by simpa using hj⟩)).1, ?_⟩
  funext a i
  exact ((batchInit_listing (perm_listing h0) P (fun j hj => (hr j hj).elim) (fun j hj => (hr j hj).elim)).1 a i).symm

/-- C232. And for the runs of the batches. -/
theorem c232_batch_run (m : BatchModel) (σ : Equiv.Perm (Fin (p + 1))) (h0 : σ 0 = 0) (P : BatchParams r p) {t0 t1 : ℝ}
    {y y' : ℝ → BatchState r p} (hy : m.Runs P t0 t1 y) (hy' : m.Runs (Spec.pickBatch σ P) t0 t1 y')
    (hs : y t0 = batchInit P) (hs' : y' t0 = batchInit (Spec.pickBatch σ P))
    (hreg : ∀ t ∈ Ico t0 t1, m.Regular (Spec.pickBatch σ P) (y' t)) :
    ∀ t ∈ Icc t0 t1, ∀ a i, y' t a i = y t a (σ i) := by
  have hz : m.Runs (Spec.pickBatch σ P) t0 t1 (fun t => Spec.pickBatchState σ (y t)) := by
    intro t ht
    obtain ⟨d, hd, hder⟩ := hy t ht
    refine ⟨Spec.pickBatchState σ d, ?_, fun a i => hder a (σ i)⟩
    rw [(c232_batch m σ h0 P (y t)).1, hd]
    rfl
  intro t ht a i
  rw [c209_batch_unique m _ hy' hz (by rw [hs', hs, (c232_batch m σ h0 P (y t)).2]) hreg t ht]
  rfl

/-! ### C233 -/

/-- C233. An ion in the list of which nothing is in the feed, in the water or on the resin stays absent and does not change the rates
of the others, the time scale and the start. -/
theorem c233_column (m : ColModel) {e : Fin (p + 1) → Fin (p' + 1)} (he : Spec.Listing e) (P : ColParams r p' z) (tH : ℝ)
    {cin : Fin (p' + 1) → ℝ} {u : ColState r p' z} (hab : Spec.OthersAbsent e cin u)
    (hf : ∀ (k : Fin (r + 1)) w, Spec.FormulaKept e P.K P.val (fun j => m.load P (u k.succ j w))) :
    (∀ a i w, m.rhs P tH cin u a (e i) w = m.rhs (Spec.pick e P) tH (cin ∘ e) (Spec.pickState e u) a i w) ∧
    (∀ j, j ∉ range e → ∀ a w, m.rhs P tH cin u a j w = 0) ∧
    tHalf P cin = tHalf (Spec.pick e P) (cin ∘ e) ∧
    (∀ a i w, (colInit P.Q cin none : ColState r p' z) a (e i) w = (colInit P.Q (cin ∘ e) none : ColState r p z) a i w) ∧
    ∀ j, j ∉ range e → ∀ a w, (colInit P.Q cin none : ColState r p' z) a j w = 0 := by
  obtain ⟨h1, h2⟩ := rhs_listing m he P tH hab hf
  obtain ⟨h3, h4⟩ := colInit_listing (r := r) (z := z) he P.Q (fun j hj => (hab j hj).1)
  exact ⟨h1, h2, tHalf_listing he P fun j hj => (hab j hj).1, h3, h4⟩

open Classical in
/-- The longer list in the state of the shorter one, nothing of the other ions. -/
noncomputable def Spec.extend (e : Fin (p + 1) → Fin (p' + 1)) (u : ColState r p z) : ColState r p' z := fun a j w =>
  if h : ∃ i, e i = j then u a h.choose w else 0

theorem extend_pick {e : Fin (p + 1) → Fin (p' + 1)} (he : Spec.Listing e) (u : ColState r p z) (a : Fin (r + 2)) (i : Fin (p + 1))
    (w : Fin (z + 1)) : Spec.extend e u a (e i) w = u a i w := by
  have h : ∃ i', e i' = e i := ⟨i, rfl⟩
  unfold Spec.extend
  rw [dif_pos h, he.1 h.choose_spec]

theorem extend_off {e : Fin (p + 1) → Fin (p' + 1)} (u : ColState r p z) {j : Fin (p' + 1)} (hj : j ∉ range e) (a : Fin (r + 2))
    (w : Fin (z + 1)) : Spec.extend e u a j w = 0 := by
  unfold Spec.extend
  exact dif_neg hj

/-- C233. A run of the column of the ions that are there is a run of the longer list. -/
theorem c233_run (m : ColModel) {e : Fin (p + 1) → Fin (p' + 1)} (he : Spec.Listing e) (P : ColParams r p' z) (tH : ℝ)
    {cin : ℝ → Fin (p' + 1) → ℝ} {t0 t1 : ℝ} (hab : ∀ t ∈ Icc t0 t1, ∀ j, j ∉ range e → cin t j = 0) {y : ℝ → ColState r p z}
    (hy : Spec.Solves colComp (fun t u => m.rhs (Spec.pick e P) tH (cin t ∘ e) u) t0 t1 y)
    (hf : ∀ t ∈ Icc t0 t1, ∀ (k : Fin (r + 1)) w,
      Spec.FormulaKept e P.K P.val (fun j => m.load P (Spec.extend e (y t) k.succ j w))) :
    Spec.Solves colComp (fun t u => m.rhs P tH (cin t) u) t0 t1 (fun t => Spec.extend e (y t)) := by
  intro t ht a
  obtain ⟨a, j, w⟩ := a
  have hoth : Spec.OthersAbsent e (cin t) (Spec.extend e (y t)) := fun j hj => ⟨hab t ht j hj, fun a w => extend_off _ hj a w⟩
  obtain ⟨h1, h2⟩ := rhs_listing m he P tH hoth (hf t ht)
  unfold colComp
  simp only
  by_cases hj : j ∈ range e
  · obtain ⟨i, rfl⟩ := hj
    rw [h1]
    have e1 : Spec.pickState e (Spec.extend e (y t)) = y t := by
      funext a i w
      exact extend_pick he (y t) a i w
    rw [e1]
    have := hy t ht (a, i, w)
    unfold colComp at this
    simp only at this
    simp only [extend_pick he]
    exact this
  · rw [h2 j hj]
    simp only [extend_off _ hj]
    exact hasDerivWithinAt_const _ _ _

/-- C233. So the run of the longer list from that state is the run of the shorter one, and nothing of the others ever appears. -/
theorem c233_unique (m : ColModel) {e : Fin (p + 1) → Fin (p' + 1)} (he : Spec.Listing e) (P : ColParams r p' z) (tH : ℝ)
    {cin : ℝ → Fin (p' + 1) → ℝ} {t0 t1 : ℝ} (hc : ContinuousOn cin (Icc t0 t1))
    (hab : ∀ t ∈ Icc t0 t1, ∀ j, j ∉ range e → cin t j = 0) {y : ℝ → ColState r p z} {Y : ℝ → ColState r p' z}
    (hy : Spec.Solves colComp (fun t u => m.rhs (Spec.pick e P) tH (cin t ∘ e) u) t0 t1 y)
    (hf : ∀ t ∈ Icc t0 t1, ∀ (k : Fin (r + 1)) w,
      Spec.FormulaKept e P.K P.val (fun j => m.load P (Spec.extend e (y t) k.succ j w)))
    (hY : Spec.Solves colComp (fun t u => m.rhs P tH (cin t) u) t0 t1 Y) (hs : Y t0 = Spec.extend e (y t0))
    (hreg : ∀ t ∈ Ico t0 t1, m.Regular P (cin t) (Y t)) :
    ∀ t ∈ Icc t0 t1, (∀ a i w, Y t a (e i) w = y t a i w) ∧ ∀ j, j ∉ range e → ∀ a w, Y t a j w = 0 := by
  intro t ht
  have := c209_unique m P tH hc hY (c233_run m he P tH hab hy hf) hs hreg t ht
  rw [this]
  exact ⟨fun a i w => extend_pick he (y t) a i w, fun j hj a w => extend_off (y t) hj a w⟩

end

/-- C233. An ion of which nothing is in the feed, in the water or on the resin does not change the rates of the others. -/
def C233 : Prop := ∀ (m : ColModel) (r p p' z : ℕ) (e : Fin (p + 1) → Fin (p' + 1)) (P : ColParams r p' z) (tH : ℝ)
  (cin : Fin (p' + 1) → ℝ) (u : ColState r p' z), Spec.Listing e → Spec.OthersAbsent e cin u →
  ∀ a i w, m.rhs P tH cin u a (e i) w = m.rhs (Spec.pick e P) tH (cin ∘ e) (Spec.pickState e u) a i w

/-- Two monovalent ions and a divalent one that is absent; the presaturant has selectivity 2. -/
noncomputable def c233Col : ColParams 0 2 0 where
  EBED := 1
  L := 1
  v := 1
  rb := 1
  Q := 2
  EPOR := 0
  kL := fun _ => 1
  Ds := fun _ => 1
  Dp := fun _ => 1
  K := ![2, 1, 1]
  val := ![1, 1, 2]
  Az := fun _ _ => 0
  Br := fun _ _ => 0
  Wr := fun _ => 1

theorem castSucc_listing {p : ℕ} : Spec.Listing (Fin.castSucc : Fin (p + 1) → Fin (p + 1 + 1)) :=
  ⟨Fin.castSucc_injective _, rfl⟩

theorem castSucc_off {p : ℕ} {j : Fin (p + 1 + 1)} (h : j ∉ range (Fin.castSucc : Fin (p + 1) → Fin (p + 1 + 1))) :
    j = Fin.last (p + 1) := by
  by_contra hj
  exact h ⟨j.castPred hj, Fin.castSucc_castPred j hj⟩

/-- C233 is false: with a divalent ion in the list the other formula is used, which takes the selectivity of the presaturant
to be 1. -/
theorem c233_false : ¬ C233 := by
  intro h
  have h1 := h .hsdm 0 1 2 0 Fin.castSucc c233Col 1 (fun j => if j = 2 then 0 else 1) (fun _ j _ => if j = 2 then 0 else 1)
    castSucc_listing (fun j hj => by rw [castSucc_off hj]; simp [show Fin.last 2 = (2 : Fin 3) from rfl]) (Fin.last 1) 1 0
  have d : ∃ i, (![1, 1, 2] : Fin 3 → ℕ) i = 2 := ⟨2, rfl⟩
  have nd : ¬ ∃ i : Fin 2, ((![1, 1, 2] : Fin 3 → ℕ) ∘ Fin.castSucc) i = 2 := by
    rintro ⟨i, hi⟩
    fin_cases i <;> simp at hi
  have e1 : ceq (![2, 1, 1] : Fin 3 → ℝ) ![1, 1, 2] (fun j => if j = 2 then 0 else 1) 2 (Fin.castSucc 1) = 1 := by
    have ha : eqAA (![2, 1, 1] : Fin 3 → ℝ) ![1, 1, 2] (fun j => if j = 2 then 0 else 1) = 0 := by
      simp [eqAA, Fin.sum_univ_succ]
    have hb : eqBB (![2, 1, 1] : Fin 3 → ℝ) ![1, 1, 2] (fun j => if j = 2 then 0 else 1) = 2 := by
      simp [eqBB, Fin.sum_univ_succ]
      norm_num
    have hc : refConc (![2, 1, 1] : Fin 3 → ℝ) ![1, 1, 2] (fun j => if j = 2 then 0 else 1) 2 = 1 := by
      unfold refConc
      simp only [ha, hb]
      rw [show ((2 : ℝ) ^ 2 - 4 * 0 * -2) = 2 ^ 2 by norm_num, Real.sqrt_sq (by norm_num)]
      norm_num
    unfold ceq
    rw [if_pos d]
    unfold ceqDv
    rw [hc]
    simp [ceqOfRef]
  have e2 : ceq ((![2, 1, 1] : Fin 3 → ℝ) ∘ Fin.castSucc) (![1, 1, 2] ∘ Fin.castSucc)
      (fun i : Fin 2 => if i.castSucc = 2 then 0 else 1) 2 1 = 4 / 3 := by
    unfold ceq
    rw [if_neg nd]
    simp [ceqMv, alphaMat, Fin.sum_univ_succ]
    norm_num
  rw [rhs_eq, rhs_eq, show Fin.last 1 = (Fin.last 0).succ from rfl, assemble_bead, assemble_bead, if_pos rfl, if_pos rfl] at h1
  have s1 : ∑ j : Fin 3, (if j = 2 then (0 : ℝ) else 1) = 2 := by simp [Fin.sum_univ_succ]; norm_num
  have s2 : ∑ j : Fin 2, (if j.castSucc = (2 : Fin 3) then (0 : ℝ) else 1) = 2 := by simp [Fin.sum_univ_succ]; norm_num
  have f1 : ColModel.hsdm.flux c233Col (setInlet (fun _ j _ => if j = 2 then 0 else 1) (fun j => if j = 2 then 0 else 1))
      (Fin.castSucc 1) 0 = 0 := by
    unfold ColModel.flux fluxJ implicitRef
    rw [if_neg (by decide)]
    show -(1 : ℝ) * (1 - ceq ![2, 1, 1] ![1, 1, 2] (fun j => if j = 2 then 0 else 1)
      (∑ j : Fin 3, if j = 2 then (0 : ℝ) else 1) (Fin.castSucc 1)) = 0
    rw [s1, e1]
    norm_num
  have f2 : ColModel.hsdm.flux (Spec.pick Fin.castSucc c233Col) (setInlet (Spec.pickState Fin.castSucc
      (fun _ j _ => if j = 2 then 0 else 1)) ((fun j => if j = 2 then 0 else 1) ∘ Fin.castSucc)) 1 0 = 1 / 3 := by
    unfold ColModel.flux fluxJ implicitRef
    rw [if_neg (by decide)]
    show -(1 : ℝ) * (1 - ceq (![2, 1, 1] ∘ Fin.castSucc) (![1, 1, 2] ∘ Fin.castSucc)
      (fun i : Fin 2 => if i.castSucc = 2 then 0 else 1) (∑ j : Fin 2, if j.castSucc = (2 : Fin 3) then (0 : ℝ) else 1) 1) = 1 / 3
    rw [s2, e2]
    norm_num
  rw [f1, f2] at h1
  simp [c233Col, Spec.pick] at h1

/-- C233. What holds: the claim with the formula kept. It is missing for a list that gets its only divalent ion from the absent ones
while the presaturant has a selectivity other than 1 or nothing is left of it. -/
theorem c233_partial (m : ColModel) (r p p' z : ℕ) (e : Fin (p + 1) → Fin (p' + 1)) (P : ColParams r p' z) (tH : ℝ)
    (cin : Fin (p' + 1) → ℝ) (u : ColState r p' z) (he : Spec.Listing e) (hab : Spec.OthersAbsent e cin u)
    (hf : ∀ (k : Fin (r + 1)) w, Spec.FormulaKept e P.K P.val (fun j => m.load P (u k.succ j w))) :
    ∀ a i w, m.rhs P tH cin u a (e i) w = m.rhs (Spec.pick e P) tH (cin ∘ e) (Spec.pickState e u) a i w :=
  (rhs_listing m he P tH hab hf).1

/-- A concrete case of C233: the column of `c233Col` with selectivity 1 for the presaturant, both monovalent ions on the resin. -/
example : Spec.FormulaKept (Fin.castSucc : Fin 2 → Fin 3) ![1, 1, 1] ![1, 1, 2] (fun j => if j = 2 then 0 else 1) := by
  refine Or.inr ⟨rfl, fun i => ?_, by simp, ?_⟩
  · fin_cases i <;> rfl
  · simp [Fin.sum_univ_succ]

/-- A concrete case of C233 with a divalent ion that is there and a monovalent one that is not. -/
example : Spec.FormulaKept (Fin.castSucc : Fin 2 → Fin 3) ![1, 3, 5] ![1, 2, 1] (fun j => if j = 2 then 0 else 1) :=
  Or.inl fun _ => ⟨1, rfl⟩

/-- A concrete case of C232: the second and third of three ions change places. -/
example : (Equiv.swap (1 : Fin 3) 2) 0 = 0 ∧ (Equiv.swap (1 : Fin 3) 2) ≠ 1 := by decide

/-! ### C234 -/

/-- C234. In a batch, an ion of which nothing is in the water and that is not on the resin as delivered changes neither the start
nor the rates of the others. -/
def C234 : Prop := ∀ (m : BatchModel) (r p p' : ℕ) (e : Fin (p + 1) → Fin (p' + 1)) (P : BatchParams r p') (u : BatchState r p'),
  Spec.Listing e → (∀ j, j ∉ range e → P.C0 j = 0) → (∀ j, j ∉ range e → ∀ a, u a j = 0) →
  (∀ a i, batchInit P a (e i) = batchInit (Spec.pickBatch e P) a i) ∧
  m.rhs (Spec.pickBatch e P) (Spec.pickBatchState e u) = (m.rhs P u).map (Spec.pickBatchState e)

/-- C234. What happens with a divalent ion: the batch starts with a thousandth of the capacity loaded with it, whatever its
concentration. -/
theorem c234_seeded {r p : ℕ} (P : BatchParams r p) {j : Fin (p + 1)} (hj : j ≠ 0) (hv : P.val j = 2) (k : Fin (r + 1)) :
    batchInit P k.succ j = P.RHOP * P.Qm / 1e3 := by
  unfold batchInit
  simp only [Fin.succ_ne_zero, if_false, if_neg hj, if_pos hv, if_pos (⟨j, hv⟩ : ∃ j, P.val j = 2)]

/-- C234. The presaturant starts with that much less for every such ion. -/
theorem c234_presaturant {r p : ℕ} (P : BatchParams r p) (hv : ∃ j, P.val j = 2) (k : Fin (r + 1)) :
    batchInit P k.succ 0 = P.RHOP * P.Qm - (Finset.univ.filter (fun j => P.val j = 2)).card * (P.RHOP * P.Qm) / 1e3 := by
  unfold batchInit
  simp only [Fin.succ_ne_zero, if_false, if_true, if_pos hv]

/-- C234. And without that loading `diffun` has no value. -/
theorem c234_undefined {r p : ℕ} (P : BatchParams r p) (u : BatchState r p) (hv : ∃ j, P.val j = 2)
    (hu : ∀ j, P.val j = 2 → ∀ a, u a j = 0) (m : BatchModel) : m.rhs P u = none := by
  have ha : ∀ q : Fin (p + 1) → ℝ, (∀ j, P.val j = 2 → q j = 0) → eqAA P.K P.val q = 0 := by
    intro q hq
    unfold eqAA
    rw [Finset.sum_eq_zero, zero_div]
    intro j _
    by_cases hj : P.val j = 2
    · rw [if_pos hj, hq j hj, zero_div]
    · rw [if_neg hj]
  refine rhs_none m P fun h => ?_
  cases m
  · exact h hv (ha _ fun j hj => hu j hj _)
  · exact h 0 hv (ha _ fun j hj => by rw [hu j hj, zero_div])

/-- A batch of two monovalent ions and a divalent one that is not in the water. -/
noncomputable def c234Batch : BatchParams 0 2 where
  RHOP := 1
  Qm := 1
  EPOR := 0
  VR := 1
  VL := 1
  Ds := 1
  Dp := 1
  kL := 1
  rb := 1
  C0 := ![1, 1, 0]
  K := ![1, 1, 1]
  val := ![1, 1, 2]
  Br := fun _ _ => 0
  Wr := fun _ => 1

/-- C234 is false. -/
theorem c234_false : ¬ C234 := by
  intro h
  have h1 := (h .hsdm 0 1 2 Fin.castSucc c234Batch (fun _ _ => 0) castSucc_listing
    (fun j hj => by rw [castSucc_off hj]; rfl) (fun _ _ _ => rfl)).1 (Fin.succ 0) 0
  have nd : ¬ ∃ i : Fin 2, (Spec.pickBatch Fin.castSucc c234Batch).val i = 2 := by
    rintro ⟨i, hi⟩
    replace hi : ((![1, 1, 2] : Fin 3 → ℕ) ∘ Fin.castSucc) i = 2 := hi
    fin_cases i <;> simp at hi
  have hcard : (Finset.univ.filter (fun j => c234Batch.val j = 2)).card = 1 := by
    show (Finset.univ.filter (fun j => (![1, 1, 2] : Fin 3 → ℕ) j = 2)).card = 1
    decide
  have e0 : Fin.castSucc (0 : Fin 2) = (0 : Fin 3) := rfl
  rw [e0, c234_presaturant c234Batch ⟨2, rfl⟩, hcard] at h1
  have e2 : batchInit (Spec.pickBatch Fin.castSucc c234Batch) (Fin.succ 0) 0 = 1 := by
    unfold batchInit
    simp only [Fin.succ_ne_zero, if_false, if_true]
    rw [if_neg nd]
    simp [Spec.pickBatch, c234Batch]
  rw [e2] at h1
  norm_num [c234Batch] at h1

/-- C234. What holds: the claim for ions that are not divalent. Missing: divalent ones, for which it is false (`c234_seeded`). -/
theorem c234_partial (m : BatchModel) (r p p' : ℕ) (e : Fin (p + 1) → Fin (p' + 1)) (P : BatchParams r p') (u : BatchState r p')
    (he : Spec.Listing e) (hc : ∀ j, j ∉ range e → P.C0 j = 0) (hu : ∀ j, j ∉ range e → ∀ a, u a j = 0)
    (hv : ∀ j, j ∉ range e → P.val j ≠ 2) :
    (∀ a i, batchInit P a (e i) = batchInit (Spec.pickBatch e P) a i) ∧
    m.rhs (Spec.pickBatch e P) (Spec.pickBatchState e u) = (m.rhs P u).map (Spec.pickBatchState e) ∧
    (∀ j, j ∉ range e → ∀ a, batchInit P a j = 0) ∧
    ∀ d, m.rhs P u = some d → ∀ j, j ∉ range e → ∀ a, d a j = 0 := by
  obtain ⟨h1, h2⟩ := batchInit_listing he P hc hv
  obtain ⟨h3, h4⟩ := batch_listing m he P hc hu (fun ⟨j, hj⟩ => by
    by_cases hr : j ∈ range e
    · obtain ⟨i, rfl⟩ := hr
      exact ⟨i, hj⟩
    · exact absurd hj (hv j hr))
  exact ⟨h1, h3, h2, h4⟩

/-- C234. Over a whole run: as long as nothing of the other ions, none of them divalent, is in the water, a run with them is a run
without them. -/
theorem c234_run {r p p' : ℕ} (m : BatchModel) {e : Fin (p + 1) → Fin (p' + 1)} (P : BatchParams r p') (he : Spec.Listing e)
    (hc : ∀ j, j ∉ range e → P.C0 j = 0) (hv : ∀ j, j ∉ range e → P.val j ≠ 2) {t0 t1 : ℝ} {Y : ℝ → BatchState r p'}
    {y : ℝ → BatchState r p} (hY : m.Runs P t0 t1 Y) (hY0 : Y t0 = batchInit P) (hy : m.Runs (Spec.pickBatch e P) t0 t1 y)
    (hy0 : y t0 = batchInit (Spec.pickBatch e P)) (hreg : ∀ t ∈ Ico t0 t1, m.Regular P (Y t)) :
    ∀ t ∈ Icc t0 t1, (∀ a i, Y t a (e i) = y t a i) ∧ ∀ j, j ∉ range e → ∀ a, Y t a j = 0 := by
  classical
  set Z : ℝ → BatchState r p' := fun t a j => if h : ∃ i, e i = j then y t a h.choose else 0 with hZ
  have zp : ∀ t a i, Z t a (e i) = y t a i := by
    intro t a i
    have h : ∃ i', e i' = e i := ⟨i, rfl⟩
    rw [hZ]
    show (if h : ∃ i', e i' = e i then y t a h.choose else 0) = _
    rw [dif_pos h, he.1 h.choose_spec]
  have zo : ∀ t j, j ∉ range e → ∀ a, Z t a j = 0 := fun t j hj a => dif_neg hj
  have hpz : ∀ t, Spec.pickBatchState e (Z t) = y t := fun t => by
    funext a i
    exact zp t a i
  have hrun : m.Runs P t0 t1 Z := by
    intro t ht
    obtain ⟨d, hd, hder⟩ := hy t ht
    obtain ⟨_, h3, _, h4⟩ := c234_partial m r p p' e P (Z t) he hc (zo t) hv
    rw [hpz, hd] at h3
    obtain ⟨D, hD, hDd⟩ := Option.map_eq_some_iff.1 h3.symm
    refine ⟨D, hD, fun a j => ?_⟩
    by_cases hj : j ∈ range e
    · obtain ⟨i, rfl⟩ := hj
      have : D a (e i) = d a i := by rw [← hDd]; rfl
      rw [this]
      simp only [zp]
      exact hder a i
    · rw [h4 D hD j hj]
      simp only [zo _ j hj]
      exact hasDerivWithinAt_const _ _ _
  have hst : Y t0 = Z t0 := by
    rw [hY0]
    obtain ⟨h1, h2⟩ := batchInit_listing he P hc hv
    funext a j
    by_cases hj : j ∈ range e
    · obtain ⟨i, rfl⟩ := hj
      rw [zp, hy0, h1]
    · rw [zo _ j hj, h2 j hj]
  intro t ht
  rw [c209_batch_unique m P hY hrun hst hreg t ht]
  exact ⟨fun a i => zp t a i, fun j hj a => zo t j hj a⟩

/-- A concrete case of C234: the third of three ions is monovalent and absent. -/
example : (∀ j, j ∉ range (Fin.castSucc : Fin 2 → Fin 3) → (![1, 1, 0] : Fin 3 → ℝ) j = 0) ∧
    ∀ j, j ∉ range (Fin.castSucc : Fin 2 → Fin 3) → (![1, 2, 1] : Fin 3 → ℕ) j ≠ 2 :=
  ⟨fun j hj => by rw [castSucc_off hj]; rfl, fun j hj => by rw [castSucc_off hj]; decide⟩

end WTM
