import Mathlib.Tactic
import Verif.Model.RIex
import Verif.Props.IexColumn

/-! C137, C138: the ion-exchange models of the web application against those of the Python package. -/
set_option autoImplicit false
namespace WTM
open BigOperators

variable {r p z : ℕ}

/-- The same state in the layout of the Python package: liquid first. -/
def toPy (x : RState r p z) : ColState r p z :=
  fun a i w => Fin.cases (x (Fin.last (r + 1)) i w) (fun k : Fin (r + 1) => x k.castSucc i w) a

/-- `diffun` of the web application for the chosen model. -/
noncomputable def ColModel.rDiffun (m : ColModel) (P : ColParams r p z) (cin : Fin (p + 1) → ℝ) (x : RState r p z) :
    Option (RState r p z) :=
  match m with
  | .hsdm => rHsdmDiffun P cin x
  | .psdm => rPsdmDiffun P cin x

theorem recyc_lt (v : Fin p → ℝ) (n : ℕ) (j : Fin p) (h : n % p = j) : recyc v n = v j := by
  have hp : 0 < p := j.pos
  unfold recyc
  rw [dif_pos hp]
  congr 1
  exact Fin.ext h

theorem recyc_first (v : Fin p → ℝ) (i : Fin p) (w : ℕ) : recyc v (i + p * w) = v i :=
  recyc_lt v _ i (by rw [Nat.add_mul_mod_self_left, Nat.mod_eq_of_lt i.2])

theorem recyc_const (v : Fin p → ℝ) {c : ℝ} (h : ∀ j, v j = c) (hp : 0 < p) (n : ℕ) : recyc v n = c := by
  unfold recyc
  rw [dif_pos hp, h]

theorem rCstar_eq (K : Fin (p + 1) → ℝ) (val : Fin (p + 1) → ℕ) (q : Fin (p + 1) → ℝ) (CT : ℝ) (w : ℕ) (i : Fin p) :
    rCstar K val q CT w i.succ = ceq K val q CT i.succ := by
  unfold rCstar ceq
  by_cases h : ∃ i, val i = 2
  · rw [if_pos h, if_pos h]
    simp only [Fin.cases_succ, recyc_first (fun j => K j.succ), ceqDv, ceqOfRef, refConc]
    rw [if_neg (Fin.succ_ne_zero i)]
    have hb : 1 + 1 / q 0 * ∑ i ∈ rMv val, q i / K i = eqBB K val q := by
      unfold eqBB rMv
      rw [Finset.sum_filter]
      ring
    have ha : ∑ i ∈ rDv val, 1 / q 0 ^ 2 * q i / K i = eqAA K val q := by
      unfold eqAA rDv
      rw [Finset.sum_filter, Finset.sum_div]
      refine Finset.sum_congr rfl fun i _ => ?_
      by_cases h : val i = 2
      · rw [if_pos h, if_pos h]; ring
      · rw [if_neg h, if_neg h]; ring
    rw [hb, ha, ← mul_div_assoc (2 : ℝ)]
  · rw [if_neg h, if_neg h]
    simp only [Fin.cases_succ, ceqMv, alphaMat]
    have : ∑ j, K i.succ / K j * q j = K i.succ * ∑ j, q j / K j := by
      rw [Finset.mul_sum]
      exact Finset.sum_congr rfl fun j _ => by ring
    rw [this, div_div_eq_mul_div, div_mul_eq_mul_div, div_div]

theorem rFlux_eq (kL C Cs Cs' : Fin (p + 1) → ℝ) (w : ℕ) (h : ∀ i : Fin p, Cs i.succ = Cs' i.succ) (i : Fin (p + 1)) :
    rFlux kL C Cs w i = fluxJ kL C Cs' i := by
  unfold rFlux fluxJ implicitRef
  simp only [recyc_first (fun j => kL j.succ), h]
  refine Fin.cases ?_ (fun i => ?_) i
  · rw [if_pos rfl]; rfl
  · rw [if_neg (Fin.succ_ne_zero i)]; rfl

theorem toPy_last (x : RState r p z) (i w) : toPy x (Fin.last (r + 1)) i w = x (Fin.last r).castSucc i w := rfl

theorem toPy_succ (x : RState r p z) (k : Fin (r + 1)) (i w) : toPy x k.succ i w = x k.castSucc i w := rfl

theorem toPy_zero (x : RState r p z) (i w) : toPy x 0 i w = x (Fin.last (r + 1)) i w := rfl

theorem setInlet_bead (u : ColState r p z) (c : Fin (p + 1) → ℝ) (k : Fin (r + 1)) (i w) :
    setInlet u c k.succ i w = u k.succ i w := by
  unfold setInlet; rw [if_neg]; rintro ⟨h, -⟩; exact Fin.succ_ne_zero k h

theorem setInlet_liq (u : ColState r p z) (c : Fin (p + 1) → ℝ) (i) {w : Fin (z + 1)} (hw : w ≠ 0) :
    setInlet u c 0 i w = u 0 i w := by
  unfold setInlet; rw [if_neg]; rintro ⟨-, h⟩; exact hw h

/-- What the web application computes at an axial point beyond the inlet: the rates of the Python package, except that
the diffusion term of counter-ion `i` at bead point `k` is that of `D k i`. -/
theorem rAssemble_eq (P : ColParams r p z) (dC J dC' J' : Fin (p + 1) → Fin (z + 1) → ℝ)
    (dq : Fin (r + 1) → Fin p → Fin (z + 1) → ℝ) (dq' : Fin (r + 1) → Fin (p + 1) → Fin (z + 1) → ℝ) {w : Fin (z + 1)}
    (hw : w ≠ 0) (hC : ∀ i, dC i w = dC' i w) (hJ : ∀ i, J i w = J' i w)
    (hq : ∀ k i, Fin.cases (-∑ j, dq k j w) (fun j => dq k j w) i = dq' k i w) (a : Fin (r + 2)) (i : Fin (p + 1)) :
    toPy (rAssemble P dC J dq) a i w = assemble P 1 dC' J' dq' a i w := by
  unfold toPy rAssemble assemble
  simp only [if_neg hw]
  refine Fin.cases ?_ (fun k => ?_) a
  · simp [hC]
  · simp only [Fin.cases_succ, Fin.lastCases_castSucc, hq, hJ]

/-- The bead rates with the diffusion coefficient chosen point by point: ion `i` at bead point `k` has those of ion
`s k i`. -/
noncomputable def Spec.beadWith (m : ColModel) (P : ColParams r p z) (s : Fin (r + 1) → Fin p → Fin p)
    (u : ColState r p z) (k : Fin (r + 1)) (i : Fin p) (w : Fin (z + 1)) : ℝ :=
  match m with
  | .hsdm => P.Ds (s k i).succ / P.rb ^ 2 * ∑ l, P.Br k l * u l.succ i.succ w
  | .psdm => (P.EPOR * (P.Dp (s k i).succ - P.Ds (s k i).succ) * (∑ l, P.Br k l * poreConc P u l i.succ w) +
      P.Ds (s k i).succ * ∑ l, P.Br k l * u l.succ i.succ w) / P.rb ^ 2

/-- Python bead rates are those with every ion's own coefficients. -/
theorem bead_own (m : ColModel) (P : ColParams r p z) (u : ColState r p z) (k : Fin (r + 1)) (i : Fin (p + 1))
    (w : Fin (z + 1)) : m.bead P 1 u k i w = Fin.cases (-∑ j, Spec.beadWith m P (fun _ i => i) u k j w)
      (fun j => Spec.beadWith m P (fun _ i => i) u k j w) i := by
  cases m
  · refine Fin.cases ?_ (fun i => ?_) i
    · simp [ColModel.bead, hsdmBead, implicitRef, Spec.beadWith]
    · simp [ColModel.bead, hsdmBead, implicitRef, Spec.beadWith, Fin.succ_ne_zero]
  · refine Fin.cases ?_ (fun i => ?_) i
    · simp [ColModel.bead, psdmBead, implicitRef, Spec.beadWith]
    · simp [ColModel.bead, psdmBead, implicitRef, Spec.beadWith, Fin.succ_ne_zero]

/-- The ion whose coefficient meets ion `i` at bead point `k`: position `k + NR * i` of a vector that starts again after
`p` entries. -/
def mixUp (r : ℕ) (hp : 0 < p) (k : Fin (r + 1)) (i : Fin p) : Fin p := ⟨(k + (r + 1) * i) % p, Nat.mod_lt _ hp⟩

theorem recyc_mix (v : Fin p → ℝ) (hp : 0 < p) (k : Fin (r + 1)) (i : Fin p) (w : ℕ) :
    recyc v (k + (r + 1) * (i + p * w)) = v (mixUp r hp k i) := by
  refine recyc_lt v _ _ ?_
  show _ = (k + (r + 1) * i) % p
  rw [show k + (r + 1) * (i + p * w) = k + (r + 1) * i + p * ((r + 1) * w) by ring, Nat.add_mul_mod_self_left]

/-- C137: what the derivative function of the web application is, at every axial point beyond the inlet. -/
theorem c137_mixed (m : ColModel) (P : ColParams r p z) (cin : Fin (p + 1) → ℝ) (x y : RState r p z)
    (h : m.rDiffun P cin x = some y) (hp : 0 < p) (a : Fin (r + 2)) (i : Fin (p + 1)) {w : Fin (z + 1)} (hw : w ≠ 0) :
    toPy y a i w = assemble P 1
      (liqRate P 1 (setInlet (toPy x) cin 0) (m.flux P (setInlet (toPy x) cin))) (m.flux P (setInlet (toPy x) cin))
      (fun k i w => Fin.cases (-∑ j, Spec.beadWith m P (mixUp r hp) (setInlet (toPy x) cin) k j w)
        (fun j => Spec.beadWith m P (mixUp r hp) (setInlet (toPy x) cin) k j w) i) a i w := by
  cases m
  · simp only [ColModel.rDiffun, rHsdmDiffun] at h
    by_cases hs : rShapesOk P.val
    swap
    · rw [if_neg hs] at h; cases h
    rw [if_pos hs] at h
    obtain rfl := Option.some.inj h
    have hJ : ∀ i (w : Fin (z + 1)), w ≠ 0 → rFlux P.kL (fun i => if w = 0 then cin i else x (Fin.last (r + 1)) i w)
        (rCstar P.K P.val (fun i => x (Fin.last r).castSucc i w) (∑ i, x (Fin.last (r + 1)) i w) (w - 1)) (w - 1) i =
        ColModel.flux .hsdm P (setInlet (toPy x) cin) i w := by
      intro i w hw
      unfold ColModel.flux
      have e1 : (fun i => setInlet (toPy x) cin 0 i w) = fun i => x (Fin.last (r + 1)) i w := by
        funext i; rw [setInlet_liq _ _ _ hw]; rfl
      have e2 : (fun i => ColModel.load .hsdm P (setInlet (toPy x) cin (Fin.last (r + 1)) i w)) =
          fun i => x (Fin.last r).castSucc i w := by
        funext i; rw [← Fin.succ_last, setInlet_bead]; rfl
      rw [e2, e1]
      simp only [if_neg hw]
      exact rFlux_eq _ _ _ _ _ (fun i => rCstar_eq _ _ _ _ _ i) i
    refine rAssemble_eq P _ _ _ _ _ _ hw ?_ (fun i => hJ i w hw) ?_ a i
    · intro i
      unfold rLiq liqRate
      beta_reduce
      have hsum : (∑ w', P.Az w w' * if w' = 0 then cin i else x (Fin.last (r + 1)) i w') =
          ∑ w', P.Az w w' * setInlet (toPy x) cin 0 i w' := by
        refine Finset.sum_congr rfl fun w' _ => ?_
        by_cases h0 : w' = 0
        · subst h0; simp [setInlet]
        · rw [if_neg h0, setInlet_liq _ _ _ h0]; rfl
      rw [hJ i w hw, hsum]
      ring
    · intro k i
      have : ∀ j, rBeadH P (fun (k : Fin (r + 1)) i w => x k.castSucc i w) k j w =
          Spec.beadWith .hsdm P (mixUp r hp) (setInlet (toPy x) cin) k j w := by
        intro j
        unfold rBeadH Spec.beadWith
        rw [recyc_mix _ hp, mul_one]
        simp only [setInlet_bead, toPy_succ]
      simp only [this]
  · simp only [ColModel.rDiffun, rPsdmDiffun] at h
    by_cases hs : rShapesOk P.val
    swap
    · rw [if_neg hs] at h; cases h
    rw [if_pos hs] at h
    obtain rfl := Option.some.inj h
    have e1 : ∀ w : Fin (z + 1), w ≠ 0 → (fun i => setInlet (toPy x) cin 0 i w) = fun i => x (Fin.last (r + 1)) i w := by
      intro w hw; funext i; rw [setInlet_liq _ _ _ hw]; rfl
    have hCp : ∀ k (i : Fin p) (w : Fin (z + 1)), w ≠ 0 →
        rCstar P.K P.val (fun i => x (Fin.castSucc k) i w / (1 - P.EPOR)) (∑ i, x (Fin.last (r + 1)) i w) (w - 1) i.succ =
        poreConc P (setInlet (toPy x) cin) k i.succ w := by
      intro k i w hw
      unfold poreConc
      rw [rCstar_eq, show (∑ i, setInlet (toPy x) cin 0 i w) = ∑ i, x (Fin.last (r + 1)) i w from
        Finset.sum_congr rfl fun i _ => congrFun (e1 w hw) i]
      simp only [setInlet_bead, toPy_succ]
    have hJ : ∀ i (w : Fin (z + 1)), w ≠ 0 → rFlux P.kL (fun i => if w = 0 then cin i else x (Fin.last (r + 1)) i w)
        (fun i => rCstar P.K P.val (fun i => x (Fin.last r).castSucc i w / (1 - P.EPOR))
          (∑ i, x (Fin.last (r + 1)) i w) (w - 1) i) (w - 1) i =
        ColModel.flux .psdm P (setInlet (toPy x) cin) i w := by
      intro i w hw
      unfold ColModel.flux
      have e2 : (fun i => ColModel.load .psdm P (setInlet (toPy x) cin (Fin.last (r + 1)) i w)) =
          fun i => x (Fin.last r).castSucc i w / (1 - P.EPOR) := by
        funext i; rw [← Fin.succ_last, setInlet_bead]; rfl
      rw [e2, e1 w hw]
      simp only [if_neg hw]
      exact rFlux_eq _ _ _ _ _ (fun i => rCstar_eq _ _ _ _ _ i) i
    refine rAssemble_eq P _ _ _ _ _ _ hw ?_ (fun i => hJ i w hw) ?_ a i
    · intro i
      unfold rLiq liqRate
      beta_reduce
      have hsum : (∑ w', P.Az w w' * if w' = 0 then cin i else x (Fin.last (r + 1)) i w') =
          ∑ w', P.Az w w' * setInlet (toPy x) cin 0 i w' := by
        refine Finset.sum_congr rfl fun w' _ => ?_
        by_cases h0 : w' = 0
        · subst h0; simp [setInlet]
        · rw [if_neg h0, setInlet_liq _ _ _ h0]; rfl
      rw [hJ i w hw, hsum]
      ring
    · intro k i
      have : ∀ j, rBeadP P (fun (k : Fin (r + 1)) i w => x k.castSucc i w)
          (fun k i w => rCstar P.K P.val (fun i => x (Fin.castSucc k) i w / (1 - P.EPOR))
            (∑ i, x (Fin.last (r + 1)) i w) (w - 1) i) k j w =
          Spec.beadWith .psdm P (mixUp r hp) (setInlet (toPy x) cin) k j w := by
        intro j
        unfold rBeadP Spec.beadWith
        rw [recyc_mix _ hp, recyc_mix _ hp, one_mul]
        simp only [setInlet_bead, toPy_succ, hCp _ _ w hw]
      simp only [this]

/-- The rates of the Python package in the same form. -/
theorem rhs_own (m : ColModel) (P : ColParams r p z) (cin : Fin (p + 1) → ℝ) (u : ColState r p z) :
    m.rhs P 1 cin u = assemble P 1 (liqRate P 1 (setInlet u cin 0) (m.flux P (setInlet u cin)))
      (m.flux P (setInlet u cin)) (fun k i w => Fin.cases
        (-∑ j, Spec.beadWith m P (fun _ i => i) (setInlet u cin) k j w)
        (fun j => Spec.beadWith m P (fun _ i => i) (setInlet u cin) k j w) i) := by
  rw [rhs_eq]
  congr 1
  funext k i w
  rw [bead_own]

/-- The claim in full: the web application and the Python package compute the same rates. -/
def C137 : Prop := ∀ (r p z : ℕ) (m : ColModel) (P : ColParams r p z) (cin : Fin (p + 1) → ℝ) (x : RState r p z), 0 < p →
  ∃ y, m.rDiffun P cin x = some y ∧ ∀ a i w, w ≠ 0 → toPy y a i w = m.rhs P 1 cin (toPy x) a i w

/-- C137, when the web application gets through and the counter-ions share their diffusion coefficients. -/
theorem c137_partial (m : ColModel) (P : ColParams r p z) (cin : Fin (p + 1) → ℝ) (x : RState r p z) (h2 : 2 ≤ p)
    (hdv : (∃ i, P.val i = 2) → (∃! i, P.val i = 2) ∧ ¬ ∃! i, i ≠ 0 ∧ P.val i = 1)
    (hDs : ∀ i j : Fin p, P.Ds i.succ = P.Ds j.succ) (hDp : ∀ i j : Fin p, P.Dp i.succ = P.Dp j.succ) :
    ∃ y, m.rDiffun P cin x = some y ∧ ∀ a i w, w ≠ 0 → toPy y a i w = m.rhs P 1 cin (toPy x) a i w := by
  have hs : rShapesOk P.val := by
    refine ⟨h2, fun h => ?_⟩
    obtain ⟨h3, h4⟩ := hdv h
    constructor
    · intro hc
      obtain ⟨i, hi⟩ := Finset.card_eq_one.1 hc
      have key : ∀ j, (P.val j = 1 ∧ j ≠ 0) ↔ j = i := by
        intro j
        have : j ∈ rMv P.val ↔ j = i := by rw [hi, Finset.mem_singleton]
        simpa [rMv] using this
      refine h4 ⟨i, ⟨((key i).2 rfl).2, ((key i).2 rfl).1⟩, fun j hj => (key j).1 ⟨hj.2, hj.1⟩⟩
    · obtain ⟨i, hi, hu⟩ := h3
      refine Finset.card_eq_one.2 ⟨i, ?_⟩
      ext j
      simp only [rDv, Finset.mem_filter, Finset.mem_univ, true_and, Finset.mem_singleton]
      exact ⟨fun hj => hu j hj, fun hj => hj ▸ hi⟩
  have hp : 0 < p := by omega
  obtain ⟨y, hy⟩ : ∃ y, m.rDiffun P cin x = some y := by
    cases m
    · exact ⟨_, if_pos hs⟩
    · exact ⟨_, if_pos hs⟩
  refine ⟨y, hy, fun a i w hw => ?_⟩
  rw [c137_mixed m P cin x y hy hp a i hw, rhs_own]
  have : ∀ u k j w, Spec.beadWith m P (mixUp r hp) u k j w = Spec.beadWith m P (fun _ i => i) u k j w := by
    intro u k j w
    cases m
    · unfold Spec.beadWith; rw [hDs (mixUp r hp k j) j]
    · unfold Spec.beadWith; rw [hDs (mixUp r hp k j) j, hDp (mixUp r hp k j) j]
  simp only [this]

/-- Where the web application stops with an error: two ions; a divalent ion with exactly one monovalent ion besides the
reference; two divalent ions. -/
theorem c137_stops (m : ColModel) (P : ColParams r p z) (cin : Fin (p + 1) → ℝ) (x : RState r p z)
    (h : p = 1 ∨ (∃ i, P.val i = 2) ∧ (∃! i, i ≠ 0 ∧ P.val i = 1) ∨ ∃ i j, i ≠ j ∧ P.val i = 2 ∧ P.val j = 2) :
    m.rDiffun P cin x = none := by
  have hs : ¬ rShapesOk P.val := by
    rintro ⟨h2, hd⟩
    rcases h with rfl | ⟨h3, i, ⟨hi0, hi1⟩, hu⟩ | ⟨i, j, hij, hi, hj⟩
    · omega
    · refine (hd h3).1 (Finset.card_eq_one.2 ⟨i, ?_⟩)
      ext j
      simp only [rMv, Finset.mem_filter, Finset.mem_univ, true_and, Finset.mem_singleton]
      exact ⟨fun hj => hu j ⟨hj.2, hj.1⟩, fun hj => hj ▸ ⟨hi1, hi0⟩⟩
    · have := (hd ⟨i, hi⟩).2
      have h2 : 1 < (rDv P.val).card := Finset.one_lt_card.2 ⟨i, by simp [rDv, hi], j, by simp [rDv, hj], hij⟩
      omega
  cases m
  · exact if_neg hs
  · exact if_neg hs

/-- Three monovalent ions whose diffusion coefficients differ. -/
noncomputable def mixP : ColParams 2 2 2 :=
  ⟨1, 1, 1, 1, 3, 0, 1, ![1, 1, 2], ![1, 1, 2], 1, ![1, 1, 1], 0, fun _ _ => 1, fun _ => 1⟩

theorem c137_false : ¬ C137 := by
  intro H
  obtain ⟨y, hy, h⟩ := H 2 2 2 .hsdm mixP 1 (fun _ _ _ => 1) (by norm_num)
  have h1 := h 2 1 1 (by decide)
  rw [c137_mixed .hsdm mixP 1 _ y hy (by norm_num) 2 1 (by decide), rhs_own] at h1
  have e : ∀ (dC J : Fin 3 → Fin 3 → ℝ) (dq : Fin 3 → Fin 3 → Fin 3 → ℝ), assemble mixP 1 dC J dq 2 1 1 = dq 1 1 1 :=
    fun dC J dq => by
      show assemble mixP 1 dC J dq (1 : Fin 3).succ 1 1 = _
      rw [assemble_bead, if_neg (by decide)]
  rw [e, e] at h1
  have e2 : ∀ f : Fin 2 → ℝ, ∀ a : ℝ, (Fin.cases a f (1 : Fin 3) : ℝ) = f 0 := fun _ _ => rfl
  rw [e2, e2] at h1
  have m1 : mixUp 2 (p := 2) (by norm_num) 1 0 = 1 := by decide
  simp only [Spec.beadWith, m1] at h1
  simp only [setInlet_bead, toPy_succ] at h1
  norm_num [mixP] at h1
  exact absurd h1 (by show (2 : ℝ) ≠ 1; norm_num)

/-- The web application gets through on that input, so it is the coefficients that differ. -/
example : rShapesOk mixP.val := by
  refine ⟨le_refl _, ?_⟩
  rintro ⟨i, hi⟩
  exfalso
  fin_cases i <;> simp [mixP] at hi

/-- A divalent and two monovalent counter-ions meet the hypotheses of `c137_partial`. -/
example : (∃! i : Fin 4, (![1, 2, 1, 1] : Fin 4 → ℕ) i = 2) ∧
    ¬ ∃! i : Fin 4, i ≠ 0 ∧ (![1, 2, 1, 1] : Fin 4 → ℕ) i = 1 := by
  refine ⟨⟨1, rfl, by decide⟩, ?_⟩
  rintro ⟨i, -, hi⟩
  have h2 := hi 2 (by decide)
  have h3 := hi 3 (by decide)
  rw [← h2] at h3
  exact absurd h3 (by decide)

/-! ### C138 -/

/-- The rates used by the integrator. -/
noncomputable def rRates (m : ColModel) (P : ColParams r p z) (cin : Fin (p + 1) → ℝ) (x : RState r p z) : RState r p z :=
  (m.rDiffun P cin x).getD 0

theorem rAssemble_sum (P : ColParams r p z) (dC J : Fin (p + 1) → Fin (z + 1) → ℝ)
    (dq : Fin (r + 1) → Fin p → Fin (z + 1) → ℝ) (k : Fin (r + 1)) (w : Fin (z + 1)) (hJ : ∑ i, J i w = 0) :
    ∑ i, rAssemble P dC J dq k.castSucc i w = 0 := by
  by_cases hw : w = 0
  · simp [rAssemble, hw]
  have hall : ∀ k, ∑ i : Fin (p + 1), (Fin.cases (-∑ j, dq k j w) (fun j => dq k j w) i : ℝ) = 0 := by
    intro k; rw [Fin.sum_univ_succ]; simp
  simp only [rAssemble, if_neg hw, Fin.lastCases_castSucc]
  by_cases hk : k = Fin.last r
  · simp only [if_pos hk]
    rw [← Finset.sum_div, Finset.sum_sub_distrib, ← Finset.mul_sum, hJ, Finset.sum_comm]
    simp only [← Finset.mul_sum, hall]
    simp
  · simp only [if_neg hk]
    exact hall k

theorem rFlux_sum (kL C Cs : Fin (p + 1) → ℝ) (w : ℕ) : ∑ i, rFlux kL C Cs w i = 0 := by
  rw [Fin.sum_univ_succ]
  simp [rFlux]

theorem rRates_sum (m : ColModel) (P : ColParams r p z) (cin : Fin (p + 1) → ℝ) (x : RState r p z) (k : Fin (r + 1))
    (w : Fin (z + 1)) : ∑ i, rRates m P cin x k.castSucc i w = 0 := by
  unfold rRates
  by_cases hs : rShapesOk P.val
  · cases m
    · simp only [ColModel.rDiffun, rHsdmDiffun, if_pos hs, Option.getD_some]
      exact rAssemble_sum P _ _ _ k w (rFlux_sum _ _ _ _)
    · simp only [ColModel.rDiffun, rPsdmDiffun, if_pos hs, Option.getD_some]
      exact rAssemble_sum P _ _ _ k w (rFlux_sum _ _ _ _)
  · cases m <;> simp [ColModel.rDiffun, rHsdmDiffun, rPsdmDiffun, if_neg hs]

/-- C138: in every state reached by a consistent scheme the resin of the web application holds `Q` everywhere, so its
charge balance check passes and the results are returned as they are, whichever diffusion coefficients were used. -/
theorem c138_totals (m : ColModel) (P : ColParams r p z) (cin : ℝ → Fin (p + 1) → ℝ) (c0 : Fin (p + 1) → ℝ)
    {x : RState r p z} (h : Spec.Produced (fun t x => rRates m P (cin t) x) (rInit P.Q c0) x) (k : Fin (r + 1))
    (w : Fin (z + 1)) : ∑ i, x k.castSucc i w = P.Q := by
  have := produced_invariant (S := RState r p z)
    { toFun := fun u => ∑ i, u k.castSucc i w
      map_add' := fun u v => by simp [Finset.sum_add_distrib]
      map_smul' := fun c u => by simp [Finset.mul_sum] }
    (fun t u => rRates_sum m P (cin t) u k w) h
  refine this.trans ?_
  show ∑ i, rInit P.Q c0 k.castSucc i w = P.Q
  simp [rInit]

theorem c138_check {m : ColModel} {P : ColParams (r + 1) p z} {cin : ℝ → Fin (p + 1) → ℝ} {c0 : Fin (p + 1) → ℝ} {tol : ℝ}
    (ht : 0 ≤ tol) {xs : List (RState (r + 1) p z)}
    (h : ∀ x ∈ xs, Spec.Produced (fun t x => rRates m P (cin t) x) (rInit P.Q c0) x) : rReport P.Q tol xs = xs := by
  unfold rReport
  rcases hx : xs.getLast? with _ | x
  · simpa [eq_comm] using hx
  · have hm := h x (List.mem_of_getLast? hx)
    simp only
    rw [c138_totals m P cin c0 hm (Fin.last (r + 1)), c138_totals m P cin c0 hm (Fin.last r).castSucc]
    rw [if_pos]
    simp [mul_nonneg ht (abs_nonneg _)]

/-- C138: a result with other totals at the outlet is replaced by zeros, and nothing else is looked at. -/
theorem c138_zeroed {Q tol : ℝ} {xs : List (RState (r + 1) p z)} {x : RState (r + 1) p z} (hx : xs.getLast? = some x)
    (hQ : tol * |∑ i, x (Fin.last (r + 1)).castSucc i (Fin.last z)| <
      |∑ i, x (Fin.last (r + 1)).castSucc i (Fin.last z) - Q|) :
    ∀ y ∈ rReport Q tol xs, y = 0 := by
  intro y hy
  unfold rReport at hy
  rw [hx] at hy
  simp only at hy
  rw [if_neg (fun h => absurd h.1 (not_le.2 hQ))] at hy
  obtain ⟨_, _, rfl⟩ := List.mem_map.1 hy
  rfl

end WTM
