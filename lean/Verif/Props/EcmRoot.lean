import Mathlib.Tactic
import Verif.Lemmas.Iast
import Verif.Props.Ecm

/-! C221: the concentrations of a mixture determine its loadings. -/
set_option autoImplicit false
namespace WTM
open BigOperators

section
variable {m : ℕ}

/-- The formula follows from the equations of the theory. -/
theorem iast_converse {K r q c : Fin m → ℝ} (hK : ∀ i, 0 < K i) (hr : ∀ i, 0 < r i) (hq : 0 < ∑ j, q j)
    (h : Spec.Iast K r q c) (i : Fin m) : c i = iastC (fun i => 1 / r i) K q i ∧ 0 < ∑ j, 1 / r j * q j := by
  obtain ⟨π, q0, c0, hπ, h1, h2, h3, h4⟩ := h
  have e : ∀ k, q0 k = π * r k := fun k => by rw [← h2 k, div_mul_cancel₀ _ (hr k).ne']
  have hS : ∑ j, 1 / r j * q j = π := by
    have h5 : ∑ j, q j / (∑ j', q j') / q0 j = (∑ j, 1 / r j * q j) / ((∑ j, q j) * π) := by
      rw [Finset.sum_div]
      refine Finset.sum_congr rfl fun k _ => ?_
      rw [e]
      have := (hr k).ne'
      field_simp
    rw [h5, eq_div_iff (mul_pos hq hπ).ne'] at h4
    rw [← h4]
    field_simp
  refine ⟨?_, by rw [hS]; exact hπ⟩
  obtain ⟨g1, g2, g3⟩ := h1 i
  unfold Spec.Freundlich at g3
  rw [h3 i]
  unfold iastC
  rw [hS]
  congr 1
  have : π / (1 / r i * K i) = c0 i ^ r i := by
    rw [e] at g3
    have := (hr i).ne'
    have := (hK i).ne'
    field_simp
    linarith
  simp only [this]
  rw [← Real.rpow_mul g2.le, mul_one_div_cancel (hr i).ne', Real.rpow_one]

/-- C221. For any positive concentrations the theory has exactly one set of positive loadings. -/
theorem c221_iast [NeZero m] {K r c : Fin m → ℝ} (hK : ∀ i, 0 < K i) (hr : ∀ i, 0 < r i) (hc : ∀ i, 0 < c i) :
    ∃! q : Fin m → ℝ, (∀ i, 0 < q i) ∧ Spec.Iast K r q c := by
  have hν : ∀ i, 0 < 1 / r i := fun i => one_div_pos.2 (hr i)
  obtain ⟨x, hx, h1, h2⟩ := iast_inverse hν hK hc
  refine ⟨x, ⟨hx, ?_⟩, ?_⟩
  · have := iast_formula hK hν (fun i => (hx i).le) (hx 0) (c := c) (fun i => (h1 i).symm)
    simpa only [one_div_one_div] using this
  · rintro y ⟨hy, h⟩
    have := iast_converse hK hr (Finset.sum_pos (fun i _ => hy i) Finset.univ_nonempty) h
    exact h2 y (this 0).2 fun i => (this i).1.symm

/-- C221. If no exponent `1/n` exceeds one, no component is loaded more than it would be alone. -/
theorem c221_below {K r q c : Fin m → ℝ} (hK : ∀ i, 0 < K i) (hr : ∀ i, 0 < r i ∧ r i ≤ 1) (hc : ∀ i, 0 < c i)
    (hq : ∀ i, 0 < q i) (h : Spec.Iast K r q c) (i : Fin m) {q1 : ℝ} (h1 : Spec.Freundlich (K i) (r i) q1 (c i)) :
    q i ≤ q1 := by
  have hh := iast_converse hK (fun i => (hr i).1) (Finset.sum_pos (fun i _ => hq i) ⟨i, Finset.mem_univ i⟩) h
  have hν : ∀ i, 1 ≤ 1 / r i := fun i => (one_le_div (hr i).1).2 (hr i).2
  have := iast_competition hν hK hq hc (fun i => (hh i).1.symm) i
  rw [one_div_one_div] at this
  rw [h1]
  exact this

/-- Loadings of a mixture with an exponent above one: the first component is loaded more than alone. -/
theorem c221_above : ∃ (K r q c : Fin 2 → ℝ) (q1 : ℝ), (∀ i, 0 < K i) ∧ (∀ i, 0 < r i) ∧ (∀ i, 0 < q i) ∧
    Spec.Iast K r q c ∧ Spec.Freundlich (K 0) (r 0) q1 (c 0) ∧ q1 < q 0 := by
  refine ⟨![5 / 4, 5], ![1 / 2, 2], ![1, 1], ![1 / 2, 1 / 2], 5 / 4 * (1 / 2) ^ (1 / 2 : ℝ), ?_, ?_, ?_, ?_, ?_, ?_⟩
  · intro i; fin_cases i <;> norm_num
  · intro i; fin_cases i <;> norm_num
  · intro i; fin_cases i <;> norm_num
  · refine ⟨5 / 2, ![5 / 4, 5], ![1, 1], by norm_num, ?_, ?_, ?_, ?_⟩
    · intro i; fin_cases i <;> norm_num [Spec.Freundlich]
    · intro i; fin_cases i <;> norm_num
    · intro i; fin_cases i <;> norm_num
    · norm_num [Fin.sum_univ_two]
  · rfl
  · have : (1 / 2 : ℝ) ^ (1 / 2 : ℝ) < 4 / 5 := by
      rw [← Real.sqrt_eq_rpow, Real.sqrt_lt' (by norm_num)]
      norm_num
    show 5 / 4 * (1 / 2 : ℝ) ^ (1 / 2 : ℝ) < 1
    linarith
end

section
variable {d : EcmData} {b : EcmBed}

theorem fcn_iff (hmw : ∀ i, 0 < d.mw i) {x : Fin d.n → ℝ} :
    (∀ i, d.fcn x i = 0) ↔ ∀ i, iastC (fun i : Fin d.n => d.xn i) (fun i : Fin d.n => d.K i) x i = d.c0 i / d.mw i := by
  refine forall_congr' fun i => ?_
  have := (hmw i).ne'
  rw [eq_div_iff this, ← sub_eq_zero (b := d.c0 i)]
  rfl

/-- C221. The equations solved for the first zone have exactly one positive solution, and no other solution for
which the base of the power is positive. -/
theorem c221_first (h : d.Ok) (hn : 0 < d.n) (hmw : ∀ i, 0 < d.mw i) (hc : ∀ i, 0 < d.c0 i) :
    ∃ x : Fin d.n → ℝ, (∀ i, 0 < x i) ∧ (∀ i, d.fcn x i = 0) ∧
      ∀ y : Fin d.n → ℝ, 0 < ∑ j : Fin d.n, d.xn j * y j → (∀ i, d.fcn y i = 0) → y = x := by
  have : NeZero d.n := ⟨hn.ne'⟩
  obtain ⟨x, h1, h2, h3⟩ := iast_inverse (ν := fun i : Fin d.n => d.xn i) (K := fun i : Fin d.n => d.K i)
    (fun i => h.xn_pos i) (fun i => (h i).1) (c := fun i : Fin d.n => d.c0 i / d.mw i) (fun i => div_pos (hc i) (hmw i))
  exact ⟨x, h1, (fcn_iff hmw).2 h2, fun y hy hz => h3 y hy ((fcn_iff hmw).1 hz)⟩

/-- The value returned by the first call solves the equations and is positive. -/
def EcmData.FirstOk (d : EcmData) (root : Root) : Prop :=
  (∀ i, 0 < d.load0 root i) ∧ ∀ i, d.fcn (d.load0 root) i = 0

theorem first_eq (h : d.Ok) (hn : 0 < d.n) (hmw : ∀ i, 0 < d.mw i) (hc : ∀ i, 0 < d.c0 i) {root : Root}
    (hr : d.FirstOk root) {x : Fin d.n → ℝ} (hx : ∀ i, 0 < x i) (hf : ∀ i, d.fcn x i = 0) : d.load0 root = x := by
  have hne : (Finset.univ : Finset (Fin d.n)).Nonempty := ⟨⟨0, hn⟩, Finset.mem_univ _⟩
  obtain ⟨z, -, -, hz⟩ := c221_first h hn hmw hc
  rw [hz x (Finset.sum_pos (fun j _ => mul_pos (h.xn_pos _) (hx j)) hne) hf,
    hz _ (Finset.sum_pos (fun j _ => mul_pos (h.xn_pos _) (hr.1 j)) hne) hr.2]

/-- C221. So the first zone, its front speed and what is reported from it do not depend on the root finder. -/
theorem c221_same (h : d.Ok) (hn : 0 < d.n) (hmw : ∀ i, 0 < d.mw i) (hc : ∀ i, 0 < d.c0 i) {root root' : Root}
    (hr : d.FirstOk root) (hr' : d.FirstOk root') :
    (d.run b root).q 0 = (d.run b root').q 0 ∧ (d.run b root).c 0 = (d.run b root').c 0 ∧
      ecmBvf b (d.run b root) 0 = ecmBvf b (d.run b root') 0 ∧
      ecmDays b (d.run b root) 0 = ecmDays b (d.run b root') 0 := by
  have e : d.first b root = d.first b root' := by
    unfold EcmData.first
    rw [first_eq h hn hmw hc hr hr'.1 hr'.2]
  obtain ⟨h1, h2, h3⟩ := run_frame (b := b) (root := root) hn
  obtain ⟨g1, g2, g3⟩ := run_frame (b := b) (root := root') hn
  have ez : d.zones b root 0 = d.zones b root' 0 := e
  rw [ez] at h1 h2 h3
  refine ⟨h1.trans g1.symm, h2.trans g2.symm, ?_, ?_⟩
  · unfold ecmBvf; rw [h3, g3]
  · unfold ecmDays; rw [h3, g3]

/-- C221. With no exponent above one the starting guess of the root finder, the loadings of the components alone,
is an upper bound. -/
theorem c221_guess (h : d.Ok) (h1 : ∀ i, d.invn i ≤ 1) (hmw : ∀ i, 0 < d.mw i) (hc : ∀ i, 0 < d.c0 i)
    (hco : ∀ i, d.co i = d.c0 i / d.mw i) {root : Root} (hr : d.FirstOk root) (i : Fin d.n) :
    d.load0 root i ≤ d.K i * d.co i ^ d.invn i := by
  have hν : ∀ i, 1 ≤ d.xn i := fun i => by
    rw [(h i).2.2]; exact (one_le_div (h i).2.1).2 (h1 i)
  have := iast_competition (ν := fun i : Fin d.n => d.xn i) (K := fun i : Fin d.n => d.K i) (fun i => hν i)
    (fun i => (h i).1) hr.1 (fun i => div_pos (hc i) (hmw i)) ((fcn_iff hmw).1 hr.2) i
  simp only [h.inv] at this
  rwa [hco]

/-- C221. So other components never delay the front of the first one: it moves at least as fast as alone. -/
theorem c221_sooner (h : d.Ok) (h1 : ∀ i, d.invn i ≤ 1) (hn : 0 < d.n) (hmw : ∀ i, 0 < d.mw i) (hc : ∀ i, 0 < d.c0 i)
    (hco : ∀ i, d.co i = d.c0 i / d.mw i) (hvf : 0 < b.vf) (hrho : 0 < b.rhob) (he : 0 < b.eps) {root : Root}
    (hr : d.FirstOk root) :
    b.vf * d.co 0 / (b.rhob * (d.K 0 * d.co 0 ^ d.invn 0) + b.eps * d.co 0) ≤ (d.run b root).vw 0 := by
  rw [run_first hn (hmw 0) (hco 0), run_c0 hn]
  have hcp : 0 < d.co 0 := by rw [hco]; exact div_pos (hc 0) (hmw 0)
  have eq : (d.run b root).q 0 0 = d.load0 root ⟨0, hn⟩ := by
    rw [(run_frame hn).1]; simp [EcmData.zones, EcmData.first, setRow, placed, hn]
  have hq : 0 < d.load0 root ⟨0, hn⟩ := hr.1 _
  have hle := c221_guess h h1 hmw hc hco hr ⟨0, hn⟩
  unfold Spec.held
  rw [eq, run_c0 hn]
  refine div_le_div_of_nonneg_left (by positivity) (by positivity) ?_
  have := mul_le_mul_of_nonneg_left hle hrho.le
  linarith

/-- C221. A component alone is loaded as its isotherm says: the starting guess is the solution. -/
theorem c221_alone (h : d.Ok) (hn : d.n = 1) (hmw : ∀ i, 0 < d.mw i) (hc : ∀ i, 0 < d.c0 i)
    (hco : ∀ i, d.co i = d.c0 i / d.mw i) {root : Root} (hr : d.FirstOk root) (i : Fin d.n) :
    d.load0 root i = d.K i * d.co i ^ d.invn i := by
  have hcp : ∀ i, 0 < d.co i := fun i => by rw [hco]; exact div_pos (hc i) (hmw i)
  have hg : ∀ i : Fin d.n, 0 < d.K i * d.co i ^ d.invn i :=
    fun i => mul_pos (h i).1 (Real.rpow_pos_of_pos (hcp i) _)
  refine congrFun (first_eq h (by omega) hmw hc hr (x := fun i : Fin d.n => d.K i * d.co i ^ d.invn i) hg ?_) i
  rw [fcn_iff hmw]
  intro k
  have hs : ∀ f : Fin d.n → ℝ, ∑ j, f j = f k := by
    intro f
    have : ∀ j : Fin d.n, j = k := fun j => by ext; omega
    rw [Finset.sum_congr rfl fun j _ => congrArg f (this j), Finset.sum_const, Finset.card_univ, Fintype.card_fin, hn,
      one_smul]
  unfold iastC
  rw [hs, hs, div_self (hg k).ne', one_mul, mul_div_mul_left _ _ (h.xn_pos k).ne',
    mul_div_cancel_left₀ _ (h k).1.ne', ← Real.rpow_mul (hcp k).le, ← h.inv, one_div_mul_cancel (h.xn_pos k).ne',
    Real.rpow_one, hco]

/-- C221. That the solution be positive must be asked for: with square-root isotherms the opposite of a solution is
a solution. -/
theorem c221_mirror (h : ∀ i, d.xn i = 2) {x : Fin d.n → ℝ} (hx : ∀ i, d.fcn x i = 0) (i : Fin d.n) :
    d.fcn (fun j => -x j) i = 0 := by
  rw [← hx i]
  unfold EcmData.fcn EcmData.fcn2
  congr 2
  simp only [h, Finset.sum_neg_distrib, mul_neg, neg_div]
  congr 1
  · rw [div_neg, neg_neg]
  · rw [show (2 : ℝ) = ((2 : ℕ) : ℝ) by norm_num, Real.rpow_natCast, Real.rpow_natCast, neg_sq]
end

/-- The example of two square-root isotherms meets the hypotheses. -/
example : exEcm.Ok ∧ 0 < exEcm.n ∧ (∀ i, 0 < exEcm.mw i) ∧ (∀ i, 0 < exEcm.c0 i) ∧ (∀ i, exEcm.invn i ≤ 1) ∧
    (∀ i, exEcm.co i = exEcm.c0 i / exEcm.mw i) ∧ exEcm.FirstOk exRoot := by
  refine ⟨exEcm_ok, by decide, ?_, ?_, ?_, fun _ => rfl, ?_, exEcm_root.1⟩
  · intro i; unfold exEcm ecmData; simp only; split <;> norm_num
  · intro i; unfold exEcm ecmData; simp only; split <;> norm_num
  · intro i; unfold exEcm ecmData; simp only; split <;> norm_num
  · intro i
    have : exEcm.n ≠ 1 := by decide
    simp [EcmData.load0, exRoot, this]

section
variable {n : ℕ}

/-- C221. In the granular carbon column, with any number of compounds and any fouling, positive pore concentrations
belong to exactly one set of loadings. -/
theorem c221_gac [NeZero n] {ym xn foul c : Fin n → ℝ} (hym : ∀ i, 0 < ym i) (hxn : ∀ i, 0 < xn i)
    (hf : ∀ i, 0 < foul i) (hc : ∀ i, 0 < c i) : ∃! y : Fin n → ℝ, ∀ i, cpore ym xn foul y i = c i := by
  have hν : ∀ i, 0 < 1 / xn i := fun i => one_div_pos.2 (hxn i)
  have hform : ∀ y : Fin n → ℝ, (∀ i, 0 < y i) → ∀ i,
      cpore ym xn foul y i = foul i * iastC (fun i => 1 / xn i) ym (fun k => ym k * y k) i := by
    intro y hy i
    rw [cpore_eq hym hxn (fun i => (hy i).le) (hy i)]
    unfold iastC
    congr 3
    have := (hxn i).ne'
    have := (hym i).ne'
    field_simp
  obtain ⟨x, hx, h1, h2⟩ := iast_inverse hν hym (c := fun i => c i / foul i) (fun i => div_pos (hc i) (hf i))
  have hpos : ∀ y : Fin n → ℝ, (∀ i, cpore ym xn foul y i = c i) → ∀ i, 0 < y i := by
    intro y hy i
    by_contra hn
    have hz : ym i * y i ≤ 0 := mul_nonpos_of_nonneg_of_nonpos (hym i).le (not_lt.1 hn)
    have : cpore ym xn foul y i = 0 := by
      have e : (if ym i * y i < 0 then 0 else ym i * y i) = 0 := by
        split
        · rfl
        · linarith
      unfold cpore
      simp only [e, zero_div, ite_self, zero_mul, mul_zero]
    have h3 := hc i
    rw [← hy i, this] at h3
    exact lt_irrefl _ h3
  refine ⟨fun i => x i / ym i, ?_, ?_⟩
  · intro i
    rw [hform _ (fun i => div_pos (hx i) (hym i)),
      show (fun k => ym k * (x k / ym k)) = x from funext fun k => mul_div_cancel₀ _ (hym k).ne', h1,
      mul_div_cancel₀ _ (hf i).ne']
  · intro y hy
    have hp := hpos y hy
    have e := h2 (fun k => ym k * y k)
      (Finset.sum_pos (fun j _ => mul_pos (hν j) (mul_pos (hym j) (hp j))) Finset.univ_nonempty) fun i => by
        rw [eq_div_iff (hf i).ne', mul_comm, ← hform y hp i, hy i]
    funext i
    rw [← congrFun e i, mul_div_cancel_left₀ _ (hym i).ne']

/-- C221. If no exponent exceeds one the loading relative to `qe` is at most that of the compound alone. -/
theorem c221_gac_below {ym xn foul y : Fin n → ℝ} (hym : ∀ i, 0 < ym i) (hxn : ∀ i, 0 < xn i ∧ xn i ≤ 1)
    (hf : ∀ i, 0 < foul i) (hy : ∀ i, 0 < y i) (i : Fin n) : y i ≤ (cpore ym xn foul y i / foul i) ^ xn i := by
  have hν : ∀ i, 1 ≤ 1 / xn i := fun i => (one_le_div (hxn i).1).2 (hxn i).2
  have hform : ∀ i, cpore ym xn foul y i / foul i = iastC (fun i => 1 / xn i) ym (fun k => ym k * y k) i := by
    intro i
    rw [cpore_eq hym (fun i => (hxn i).1) (fun i => (hy i).le) (hy i), mul_div_cancel_left₀ _ (hf i).ne']
    unfold iastC
    congr 2
    have := (hxn i).1.ne'
    have := (hym i).ne'
    field_simp
  have hzp : ∀ k, 0 < ym k * y k := fun k => mul_pos (hym k) (hy k)
  have hne : (Finset.univ : Finset (Fin n)).Nonempty := ⟨i, Finset.mem_univ i⟩
  have hν0 : ∀ k, 0 < 1 / xn k := fun k => one_div_pos.2 (hxn k).1
  have hcp : ∀ k, 0 < iastC (fun i => 1 / xn i) ym (fun k => ym k * y k) k := fun k =>
    mul_pos (div_pos (hzp k) (Finset.sum_pos (fun j _ => hzp j) hne)) (Real.rpow_pos_of_pos
      (div_pos (Finset.sum_pos (fun j _ => mul_pos (hν0 j) (hzp j)) hne) (mul_pos (hν0 k) (hym k))) _)
  have := iast_competition hν hym hzp hcp (fun _ => rfl) i
  rw [one_div_one_div, ← hform] at this
  exact le_of_mul_le_mul_left this (hym i)

/-- C221. A bed in equilibrium with the influent, in a mixture: every loading is at most the single-solute capacity. -/
theorem c221_gac_bed [NeZero n] {cs : Fin n → GacComp} (hc : ∀ i, (cs i).Ok) (hx : ∀ i, (cs i).xn ≤ 1) :
    ∃! y : Fin n → ℝ, (∀ i, cpore (ymOf cs) (fun i => (cs i).xn) (fun _ => 1) y i = 1) ∧ ∀ i, 0 < y i ∧ y i ≤ 1 := by
  obtain ⟨y, h1, h2⟩ := c221_gac (fun i => ym_pos hc i) (fun i => (hc i).2.1) (foul := fun _ => 1) (c := fun _ => 1)
    (fun _ => one_pos) (fun _ => one_pos)
  have hp : ∀ i, 0 < y i := by
    intro i
    by_contra hn
    have hz : ymOf cs i * y i ≤ 0 := mul_nonpos_of_nonneg_of_nonpos (ym_pos hc i).le (not_lt.1 hn)
    have : cpore (ymOf cs) (fun i => (cs i).xn) (fun _ => 1) y i = 0 := by
      have e : (if ymOf cs i * y i < 0 then 0 else ymOf cs i * y i) = 0 := by
        split
        · rfl
        · linarith
      unfold cpore
      simp only [e, zero_div, ite_self, zero_mul, mul_zero]
    have h3 := h1 i
    rw [this] at h3
    exact zero_ne_one h3
  refine ⟨y, ⟨h1, fun i => ⟨hp i, ?_⟩⟩, fun z hz => h2 z hz.1⟩
  have := c221_gac_below (fun i => ym_pos hc i) (fun i => ⟨(hc i).2.1, hx i⟩) (foul := fun _ => 1)
    (fun _ => one_pos) hp i
  rwa [h1 i, div_one, Real.one_rpow] at this

/-- Two compounds meet the hypotheses. -/
example : (∀ i, ((![⟨100, 1 / 2, 131, 90, 3, 0, 0, 0⟩, ⟨20, 3 / 4, 414, 200, 0, 0, 0, 0⟩] : Fin 2 → GacComp) i).Ok) ∧
    ∀ i, ((![⟨100, 1 / 2, 131, 90, 3, 0, 0, 0⟩, ⟨20, 3 / 4, 414, 200, 0, 0, 0, 0⟩] : Fin 2 → GacComp) i).xn ≤ 1 := by
  constructor <;> intro i <;> fin_cases i <;> norm_num [GacComp.Ok]
end
end WTM
