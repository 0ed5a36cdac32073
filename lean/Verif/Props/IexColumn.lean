import Mathlib.Tactic.Linarith
import Mathlib.Tactic.FieldSimp
import Mathlib.Tactic.LinearCombination
import Mathlib.Tactic.FinCases
import Mathlib.Algebra.BigOperators.Field
import Verif.Model.IexColumn
import Verif.Lemmas.Ode
import Verif.Props.Equil
import Verif.Props.Colloc
import Verif.Props.Advect

/-! Properties C28-C31, C33 (column part), C82: the ion-exchange column models. -/
set_option autoImplicit false
namespace WTM
open BigOperators

variable {r p z : ℕ}

/-- The two column models. -/
inductive ColModel
  | hsdm
  | psdm

/-- `diffun` of the chosen model. -/
noncomputable def ColModel.rhs (m : ColModel) (P : ColParams r p z) (tH : ℝ)
    (cin : Fin (p + 1) → ℝ) (u : ColState r p z) : ColState r p z :=
  match m with
  | .hsdm => hsdmixRhs P tH cin u
  | .psdm => psdmixRhs P tH cin u

/-- Surface loading seen by the equilibrium: the state itself (HSDM), or divided by the bead solid
fraction (PSDM). -/
noncomputable def ColModel.load (m : ColModel) (P : ColParams r p z) (y : ℝ) : ℝ :=
  match m with
  | .hsdm => y
  | .psdm => y / (1 - P.EPOR)

noncomputable def ColModel.bead (m : ColModel) (P : ColParams r p z) (tH : ℝ) (u : ColState r p z) :
    Fin (r + 1) → Fin (p + 1) → Fin (z + 1) → ℝ :=
  match m with
  | .hsdm => hsdmBead P tH u
  | .psdm => psdmBead P tH u

/-- Flux at an axial point. -/
noncomputable def ColModel.flux (m : ColModel) (P : ColParams r p z) (u : ColState r p z)
    (i : Fin (p + 1)) (w : Fin (z + 1)) : ℝ :=
  fluxJ P.kL (fun i => u 0 i w)
    (ceq P.K P.val (fun i => m.load P (u (Fin.last (r + 1)) i w)) (∑ i, u 0 i w)) i

theorem rhs_eq (m : ColModel) (P : ColParams r p z) (tH : ℝ) (cin : Fin (p + 1) → ℝ)
    (u : ColState r p z) :
    m.rhs P tH cin u = assemble P tH
      (liqRate P tH (setInlet u cin 0) (m.flux P (setInlet u cin))) (m.flux P (setInlet u cin))
      (m.bead P tH (setInlet u cin)) := by
  cases m <;> rfl

theorem assemble_liq (P : ColParams r p z) (tH : ℝ) (dC J : Fin (p + 1) → Fin (z + 1) → ℝ)
    (dq : Fin (r + 1) → Fin (p + 1) → Fin (z + 1) → ℝ) (i : Fin (p + 1)) (w : Fin (z + 1)) :
    assemble P tH dC J dq 0 i w = if w = 0 then 0 else dC i w := rfl

theorem assemble_bead (P : ColParams r p z) (tH : ℝ) (dC J : Fin (p + 1) → Fin (z + 1) → ℝ)
    (dq : Fin (r + 1) → Fin (p + 1) → Fin (z + 1) → ℝ) (k : Fin (r + 1)) (i : Fin (p + 1))
    (w : Fin (z + 1)) :
    assemble P tH dC J dq k.succ i w = if k = Fin.last r then
        (-tH / P.rb * J i w - ∑ k' : Fin r, P.Wr k'.castSucc * dq k'.castSucc i w)
          / P.Wr (Fin.last r)
      else dq k i w := rfl

theorem implicitRef_sum (f : Fin (p + 1) → ℝ) : ∑ i, implicitRef f i = 0 := by
  rw [Fin.sum_univ_succ]
  simp [implicitRef, Fin.succ_ne_zero]

theorem flux_sum (m : ColModel) (P : ColParams r p z) (u : ColState r p z) (w : Fin (z + 1)) :
    ∑ i, m.flux P u i w = 0 := implicitRef_sum _

theorem bead_sum (m : ColModel) (P : ColParams r p z) (tH : ℝ) (u : ColState r p z)
    (k : Fin (r + 1)) (w : Fin (z + 1)) : ∑ i, m.bead P tH u k i w = 0 := by
  cases m
  · exact implicitRef_sum _
  · exact implicitRef_sum _

/-! ### C28 -/

/-- C28. For every state, influent and parameter set, the resin-phase rates sum to zero over the ions at
every bead point and axial point, in both models. -/
theorem c28_rates (m : ColModel) (P : ColParams r p z) (tH : ℝ) (cin : Fin (p + 1) → ℝ)
    (u : ColState r p z) (k : Fin (r + 1)) (w : Fin (z + 1)) :
    ∑ i, m.rhs P tH cin u k.succ i w = 0 := by
  simp only [rhs_eq, assemble_bead]
  split
  · rw [← Finset.sum_div, Finset.sum_sub_distrib, ← Finset.mul_sum, flux_sum, mul_zero, zero_sub,
      Finset.sum_comm]
    rw [Finset.sum_eq_zero, neg_zero, zero_div]
    intro k' _
    rw [← Finset.mul_sum, bead_sum, mul_zero]
  · exact bead_sum m P tH _ k w

/-- Component of a column state. -/
def colComp (a : Fin (r + 2) × Fin (p + 1) × Fin (z + 1)) (u : ColState r p z) : ℝ := u a.1 a.2.1 a.2.2

/-- C28. Along every exact solution, with any time-varying influent, the total resin loading at every
point stays what it was. -/
theorem c28_solutions (m : ColModel) (P : ColParams r p z) (tH : ℝ) (cin : ℝ → Fin (p + 1) → ℝ)
    {t0 t1 : ℝ} {y : ℝ → ColState r p z}
    (h : Spec.Solves colComp (fun t u => m.rhs P tH (cin t) u) t0 t1 y) {t : ℝ}
    (ht : t ∈ Set.Icc t0 t1) (k : Fin (r + 1)) (w : Fin (z + 1)) :
    ∑ i, y t k.succ i w = ∑ i, y t0 k.succ i w := by
  have := solves_invariant h (κ := Fin (p + 1)) (fun _ => 1) (fun i => (k.succ, i, w))
    (fun s _ => by simpa [colComp] using c28_rates m P tH (cin s) (y s) k w) ht
  simpa [colComp] using this

/-- C28. The same for every state produced by a consistent time-stepping scheme. -/
theorem c28_schemes (m : ColModel) (P : ColParams r p z) (tH : ℝ) (cin : ℝ → Fin (p + 1) → ℝ)
    {y0 y : ColState r p z} (h : Spec.Produced (fun t u => m.rhs P tH (cin t) u) y0 y)
    (k : Fin (r + 1)) (w : Fin (z + 1)) : ∑ i, y k.succ i w = ∑ i, y0 k.succ i w :=
  produced_invariant (S := ColState r p z)
    { toFun := fun u => ∑ i, u k.succ i w
      map_add' := fun u v => by simp [Finset.sum_add_distrib]
      map_smul' := fun c u => by simp [Finset.mul_sum] }
    (fun t u => c28_rates m P tH (cin t) u k w) h

/-! ### C33, column part -/

/-- C33. In the initial column state the resin total is `Q` at every point of every bead and the liquid
total equals the influent total at every axial point. -/
theorem c33_column (Q : ℝ) (Cin : Fin (p + 1) → ℝ) :
    (∀ (k : Fin (r + 1)) (w : Fin (z + 1)),
      ∑ i, colInit (r := r) (z := z) Q Cin none k.succ i w = Q) ∧
    (∀ w : Fin (z + 1), ∑ i, colInit (r := r) (z := z) Q Cin none 0 i w = ∑ i, Cin i) ∧
    (∀ i, colInit (r := r) (z := z) Q Cin none 0 i 0 = Cin i) := by
  refine ⟨fun k w => ?_, fun w => ?_, fun i => ?_⟩
  · simp [colInit, Fin.succ_ne_zero]
  · by_cases h : w = 0 <;> simp [colInit, h]
  · simp [colInit]

/-- C33. A supplied state is used everywhere except at the inlet, which gets the influent. -/
theorem c33_restart (Q : ℝ) (Cin : Fin (p + 1) → ℝ) (u : ColState r p z) :
    (∀ i, colInit Q Cin (some u) 0 i 0 = Cin i) ∧
    ∀ a i w, a ≠ 0 ∨ w ≠ 0 → colInit Q Cin (some u) a i w = u a i w := by
  refine ⟨fun i => by simp [colInit], fun a i w h => ?_⟩
  simp only [colInit]
  rw [if_neg]
  rintro ⟨rfl, rfl⟩
  simp at h

/-- C28 with C33: a run started by the code keeps the resin total at `Q` everywhere, in every scheme. -/
theorem c28_total_is_Q (m : ColModel) (P : ColParams r p z) (tH : ℝ) (cin : ℝ → Fin (p + 1) → ℝ)
    (Cin : Fin (p + 1) → ℝ) {y : ColState r p z}
    (h : Spec.Produced (fun t u => m.rhs P tH (cin t) u) (colInit P.Q Cin none) y)
    (k : Fin (r + 1)) (w : Fin (z + 1)) : ∑ i, y k.succ i w = P.Q := by
  rw [c28_schemes m P tH cin h, (c33_column P.Q Cin).1]

/-- One explicit Euler step is such a scheme. -/
example (m : ColModel) (P : ColParams r p z) (tH h : ℝ) (cin : ℝ → Fin (p + 1) → ℝ)
    (y0 : ColState r p z) :
    Spec.Produced (fun t u => m.rhs P tH (cin t) u) y0 (y0 + h • m.rhs P tH (cin 0) y0) := by
  have := Spec.Produced.step (F := fun t u => m.rhs P tH (cin t) u) (y0 := y0) 1 1 (fun _ => y0)
    (fun _ => 1) (fun _ => .start) (by simp) (fun _ => 0) (fun _ => h) (fun _ => y0)
  simpa using this

/-! ### C29 -/

/-- C29. For every ion, axial point and state: three times the quadrature-weighted rate of bead loading
is minus the specific area `3/rb` times the surface flux (in the solver's time), where the flux of an
ion other than the reference is `-kL (C - Ceq)` and the reference carries the balance. -/
theorem c29_bead (m : ColModel) (P : ColParams r p z) (tH : ℝ) (cin : Fin (p + 1) → ℝ)
    (u : ColState r p z) (hW : P.Wr (Fin.last r) ≠ 0) (w : Fin (z + 1)) :
    ∃ J : Fin (p + 1) → ℝ,
      (∀ i, 3 * ∑ k, P.Wr k * m.rhs P tH cin u k.succ i w = -(3 / P.rb * J i) * tH) ∧
      (∀ i, i ≠ 0 → J i = -P.kL i * (setInlet u cin 0 i w -
        ceq P.K P.val (fun j => m.load P (setInlet u cin (Fin.last (r + 1)) j w))
          (∑ j, setInlet u cin 0 j w) i)) ∧
      ∑ i, J i = 0 := by
  refine ⟨fun i => m.flux P (setInlet u cin) i w, fun i => ?_, fun i hi => ?_, flux_sum m P _ w⟩
  · simp only [rhs_eq, assemble_bead]
    rw [Fin.sum_univ_castSucc]
    have hne : ∀ k : Fin r, k.castSucc ≠ Fin.last r := fun k => (Fin.castSucc_lt_last k).ne
    simp only [hne, if_false, if_true]
    rw [mul_div_cancel₀ _ hW]
    ring
  · simp [ColModel.flux, fluxJ, implicitRef, hi]

/-- C29. What leaves the beads enters the water: at every axial point but the inlet, liquid plus bead
content changes only by advection. -/
theorem c29_exchange (m : ColModel) (P : ColParams r p z) (tH : ℝ) (cin : Fin (p + 1) → ℝ)
    (u : ColState r p z) (hW : P.Wr (Fin.last r) ≠ 0) (hE : P.EBED ≠ 0) (i : Fin (p + 1))
    {w : Fin (z + 1)} (hw : w ≠ 0) :
    P.EBED * m.rhs P tH cin u 0 i w +
      (1 - P.EBED) * (3 * ∑ k, P.Wr k * m.rhs P tH cin u k.succ i w) =
    -(P.v / P.L) * (∑ w', P.Az w w' * setInlet u cin 0 i w') * tH := by
  simp only [rhs_eq, assemble_bead, assemble_liq, if_neg hw]
  rw [Fin.sum_univ_castSucc]
  have hne : ∀ k : Fin r, k.castSucc ≠ Fin.last r := fun k => (Fin.castSucc_lt_last k).ne
  simp only [hne, if_false, if_true]
  rw [mul_div_cancel₀ _ hW]
  unfold liqRate
  field_simp
  ring

/-- The inlet row never changes. -/
theorem inlet_rate (m : ColModel) (P : ColParams r p z) (tH : ℝ) (cin : Fin (p + 1) → ℝ)
    (u : ColState r p z) (i : Fin (p + 1)) : m.rhs P tH cin u 0 i 0 = 0 := by
  simp [rhs_eq, assemble_liq]

/-! ### C30 -/

/-- C30. If the total liquid concentration is the same at all axial points (inlet included), its rate is
zero everywhere. -/
theorem c30_uniform (m : ColModel) (P : ColParams r p z) (tH : ℝ) (cin : Fin (p + 1) → ℝ)
    (u : ColState r p z) (hA : ∀ w, ∑ w', P.Az w w' = 0) {CT : ℝ} (hin : ∑ i, cin i = CT)
    (hu : ∀ w, w ≠ 0 → ∑ i, u 0 i w = CT) (w : Fin (z + 1)) :
    ∑ i, m.rhs P tH cin u 0 i w = 0 := by
  simp only [rhs_eq, assemble_liq]
  by_cases hw : w = 0
  · simp [hw]
  · simp only [if_neg hw, liqRate]
    have hC : ∀ w', ∑ i, setInlet u cin 0 i w' = CT := by
      intro w'
      by_cases h' : w' = 0
      · simp [setInlet, h', hin]
      · simp [setInlet, h', hu w' h']
    have h1 : ∑ i, ∑ w', P.Az w w' * setInlet u cin 0 i w' = 0 := by
      rw [Finset.sum_comm]
      simp only [← Finset.mul_sum, hC]
      rw [← Finset.sum_mul, hA, zero_mul]
    rw [← Finset.sum_mul, ← Finset.sum_div, Finset.sum_add_distrib, ← Finset.mul_sum, h1,
      ← Finset.mul_sum, ← Finset.sum_div, ← Finset.sum_mul, flux_sum]
    simp

/-- C30. Whatever the state: the rate of the total is the advection of the total, ion exchange adds
nothing. -/
theorem c30_advection_only (m : ColModel) (P : ColParams r p z) (tH : ℝ) (cin : Fin (p + 1) → ℝ)
    (u : ColState r p z) {w : Fin (z + 1)} (hw : w ≠ 0) :
    ∑ i, m.rhs P tH cin u 0 i w =
      -P.v / P.L * (∑ w', P.Az w w' * ∑ i, setInlet u cin 0 i w') / P.EBED * tH := by
  simp only [rhs_eq, assemble_liq, if_neg hw, liqRate]
  rw [← Finset.sum_mul, ← Finset.sum_div, Finset.sum_add_distrib, ← Finset.mul_sum,
    ← Finset.mul_sum, ← Finset.sum_div, ← Finset.sum_mul, flux_sum, Finset.sum_comm]
  simp only [← Finset.mul_sum]
  simp

/-- The operators of the code meet the hypothesis of C30: single element, any distinct interior nodes. -/
theorem az_rows_single {n : ℕ} {x : Fin n → ℝ} (hx : Function.Injective x) (w : Fin n) :
    ∑ w', aMat x w w' = 0 := c14_constants hx w

/-- The same for the multi-element operator on any grid `0 = x_0 < … < x_M = 1` per element. -/
theorem az_rows_ocfe {NE M : ℕ} (hNE : 1 ≤ NE) (hM : 0 < M) {x : Fin (M + 1) → ℝ} (hx : StrictMono x)
    (h0 : x 0 = 0) (h1 : x (Fin.last M) = 1) (w : Fin (NE * M + 1)) :
    ∑ w' : Fin (NE * M + 1), advOp NE (M + 1) (arr2 (aMat x)) w w' = 0 := by
  rw [Fin.sum_univ_eq_sum_range (fun j => advOp NE (M + 1) (arr2 (aMat x)) w j) (NE * M + 1)]
  exact c19_constants hNE hM hx h0 h1 w.2

/-! ### C31 -/

/-- C31. Liquid equal to the influent everywhere, loadings radially uniform, and surface equilibrium
concentrations equal to the liquid: every rate is zero. -/
theorem c31_steady (m : ColModel) (P : ColParams r p z) (tH : ℝ) (cin : Fin (p + 1) → ℝ)
    (u : ColState r p z) (hA : ∀ w, ∑ w', P.Az w w' = 0) (hB : ∀ k, ∑ l, P.Br k l = 0)
    (hliq : ∀ i w, u 0 i w = cin i) (hrad : ∀ k l i w, u (Fin.succ k) i w = u (Fin.succ l) i w)
    (heq : ∀ w i, ceq P.K P.val (fun j => m.load P (u (Fin.last (r + 1)) j w)) (∑ j, cin j) i = cin i) :
    ∀ a i w, m.rhs P tH cin u a i w = 0 := by
  have hset : setInlet u cin = u := by
    funext a i w
    unfold setInlet
    split
    · rename_i h; rw [h.1, hliq]
    · rfl
  have hJ : ∀ i w, m.flux P u i w = 0 := by
    intro i w
    have h0 : ∀ i, -P.kL i * (u 0 i w - ceq P.K P.val
        (fun j => m.load P (u (Fin.last (r + 1)) j w)) (∑ j, u 0 j w) i) = 0 := by
      intro i
      simp only [hliq, heq, sub_self, mul_zero]
    unfold ColModel.flux fluxJ implicitRef
    simp only [h0]
    simp
  have hlap : ∀ (f : Fin (r + 1) → ℝ), (∀ k l, f k = f l) → ∀ k, ∑ l, P.Br k l * f l = 0 := by
    intro f hf k
    rw [Finset.sum_congr rfl (fun l _ => by rw [hf l k]), ← Finset.sum_mul, hB, zero_mul]
  have hq : ∀ k i w, m.bead P tH u k i w = 0 := by
    intro k i w
    have h1 : ∀ i, ∑ l, P.Br k l * u (Fin.succ l) i w = 0 := fun i =>
      hlap (fun l => u l.succ i w) (fun k l => hrad k l i w) k
    cases m
    · simp only [ColModel.bead, hsdmBead, h1, mul_zero]
      simp [implicitRef]
    · have h2 : ∀ i, ∑ l, P.Br k l * poreConc P u l i w = 0 := fun i =>
        hlap (fun l => poreConc P u l i w) (fun k l => by
          unfold poreConc
          simp only [fun j => hrad k l j w]) k
      simp only [ColModel.bead, psdmBead, h1, h2, mul_zero]
      simp [implicitRef]
  intro a i w
  rw [rhs_eq, hset]
  refine Fin.cases ?_ (fun k => ?_) a
  · rw [assemble_liq]
    split
    · rfl
    · unfold liqRate
      rw [Finset.sum_congr rfl (fun w' _ => by rw [hliq i w']), ← Finset.sum_mul, hA, hJ]
      simp
  · rw [assemble_bead]
    simp only [hJ, hq]
    simp

/-- The radial operator of the code annihilates constants, as C31 asks. -/
theorem br_rows {n : ℕ} {u : Fin n → ℝ} (hu : Function.Injective u) (hpos : ∀ i, 0 < u i) (a : ℝ)
    (k : Fin n) : ∑ l, symmB a u k l = 0 := by
  have hn : 0 < n := k.pos
  have h := (c16_radial hu hpos a (f := (1 : Polynomial ℝ)) (by simp [Spec.Even]) (by simp; omega) k).2.1
  simpa using h

/-- A column loaded in equilibrium with its influent exists: two monovalent ions of selectivities 1 and
3, influent (2, 1), loadings (2, 3). -/
example : ∀ i : Fin 2,
    ceq ![1, 3] ![1, 1] (fun j => ColModel.load (r := 0) (z := 2) .hsdm
      ⟨1, 1, 1, 1, 5, 0, ![1, 1], ![1, 1], ![1, 1], ![1, 3], ![1, 1], 0, 0, ![1]⟩
      ((![![2, 1], ![2, 3]] : Fin 2 → Fin 2 → ℝ) (Fin.last 1) j)) (∑ j, (![2, 1] : Fin 2 → ℝ) j) i =
      (![2, 1] : Fin 2 → ℝ) i := by
  intro i
  have hval : ¬ ∃ i : Fin 2, (![1, 1] : Fin 2 → ℕ) i = 2 := by
    rintro ⟨i, hi⟩; fin_cases i <;> simp at hi
  unfold ceq
  rw [if_neg hval]
  fin_cases i <;> simp [ceqMv, alphaMat, Fin.sum_univ_two, ColModel.load] <;> norm_num

/-! ### C82 -/

/-- C82. Solver rates are the time scale times rates that do not mention it. -/
theorem c82_rates (m : ColModel) (P : ColParams r p z) (tH : ℝ) (cin : Fin (p + 1) → ℝ)
    (u : ColState r p z) : ∀ a i w, m.rhs P tH cin u a i w = tH * m.rhs P 1 cin u a i w := by
  have hq : ∀ k i w, m.bead P tH (setInlet u cin) k i w =
      tH * m.bead P 1 (setInlet u cin) k i w := by
    intro k i w
    cases m
    · simp only [ColModel.bead, hsdmBead, implicitRef]
      split
      · rw [mul_neg, Finset.mul_sum]
        congr 1
        exact Finset.sum_congr rfl (fun j _ => by ring)
      · ring
    · simp only [ColModel.bead, psdmBead, implicitRef]
      split
      · rw [mul_neg, Finset.mul_sum]
        congr 1
        exact Finset.sum_congr rfl (fun j _ => by ring)
      · ring
  intro a i w
  simp only [rhs_eq]
  refine Fin.cases ?_ (fun k => ?_) a
  · simp only [assemble_liq]
    split
    · ring
    · unfold liqRate; ring
  · simp only [assemble_bead]
    split
    · simp only [hq]
      have : ∑ k' : Fin r, P.Wr k'.castSucc * (tH * m.bead P 1 (setInlet u cin) k'.castSucc i w) =
          tH * ∑ k' : Fin r, P.Wr k'.castSucc * m.bead P 1 (setInlet u cin) k'.castSucc i w := by
        rw [Finset.mul_sum]
        exact Finset.sum_congr rfl (fun k' _ => by ring)
      rw [this]; ring
    · exact hq k i w

/-- C82. A requested time comes back as itself in seconds, whatever the time scale. -/
theorem c82_times (mult t : ℝ) {tH : ℝ} (h : tH ≠ 0) : outTime tH (toSolverTime mult tH t) = t * mult := by
  unfold outTime toSolverTime
  field_simp

/-- Interpolation does not see a common rescaling of the times. -/
theorem interpVal_scale {c : ℝ} (hc : 0 < c) (tab : List (ℝ × ℝ)) (t : ℝ) :
    interpVal (tab.map (fun r => (r.1 * c, r.2))) (t * c) = interpVal tab t := by
  induction tab with
  | nil => rfl
  | cons a tab ih =>
    cases tab with
    | nil => rfl
    | cons b rest =>
      simp only [List.map_cons, interpVal] at ih ⊢
      simp only [mul_lt_mul_iff_left₀ hc, mul_le_mul_iff_left₀ hc, ih]
      have : (b.2 - a.2) / (b.1 * c - a.1 * c) * (t * c - a.1 * c) =
          (b.2 - a.2) / (b.1 - a.1) * (t - a.1) := by
        rw [← sub_mul, ← sub_mul, div_mul_eq_mul_div, div_mul_eq_mul_div, ← mul_assoc,
          mul_div_mul_right _ _ hc.ne']
      rw [this]

/-- C82. The influent at a physical time does not depend on the time scale. -/
theorem c82_influent {n : ℕ} (tab : List (ℝ × (Fin n → ℝ))) (mult t : ℝ) {tH : ℝ} (h : 0 < tH)
    (i : Fin n) : getCin tab (mult / tH) (t / tH) i = getCin tab mult t i := by
  unfold getCin
  rw [← interpVal_scale h]
  simp only [List.map_map]
  rw [div_mul_cancel₀ _ h.ne']
  congr 1
  apply List.map_congr_left
  intro r _
  simp only [Function.comp]
  rw [mul_assoc, div_mul_cancel₀ _ h.ne']

/-- C82. If `Y` solves the scaled equations over solver time, then `Y` at physical time divided by the
scale solves equations in which the scale does not occur. -/
theorem c82_solutions (m : ColModel) (P : ColParams r p z) {tH : ℝ} (h : 0 < tH)
    (cin : ℝ → Fin (p + 1) → ℝ) {T1 : ℝ} {Y : ℝ → ColState r p z}
    (hY : Spec.Solves colComp (fun T u => m.rhs P tH (cin (T * tH)) u) 0 T1 Y) :
    Spec.Solves colComp (fun t u => m.rhs P 1 (cin t) u) 0 (T1 * tH) (fun t => Y (t / tH)) := by
  intro t ht a
  have hT : t / tH ∈ Set.Icc 0 T1 := ⟨div_nonneg ht.1 h.le, (div_le_iff₀ h).2 ht.2⟩
  have h1 := hY (t / tH) hT a
  have h2 : HasDerivWithinAt (fun s : ℝ => s / tH) (1 / tH) (Set.Icc 0 (T1 * tH)) t :=
    (hasDerivWithinAt_id t _).div_const tH
  have hmaps : Set.MapsTo (fun s : ℝ => s / tH) (Set.Icc 0 (T1 * tH)) (Set.Icc 0 T1) :=
    fun s hs => ⟨div_nonneg hs.1 h.le, (div_le_iff₀ h).2 hs.2⟩
  have h3 := h1.scomp t h2 hmaps
  have e : (1 / tH) • colComp a (m.rhs P tH (cin (t / tH * tH)) (Y (t / tH))) =
      colComp a (m.rhs P 1 (cin t) (Y (t / tH))) := by
    unfold colComp
    rw [c82_rates, div_mul_cancel₀ _ h.ne', smul_eq_mul]
    field_simp
  rw [e] at h3
  exact h3

end WTM
