import Verif.Lemmas.Forced
import Verif.Props.PacLimit

/-! C215: a carbon column with one compound runs for as long as its inputs are given. -/
set_option autoImplicit false
namespace WTM
open BigOperators Set Topology Filter

variable {r z : ℕ}

/-- Pore concentration of a loading of a single compound, before fouling. -/
noncomputable def freund (xn q : ℝ) : ℝ := max q 0 ^ (1 / xn)

theorem freund_nonneg (xn q : ℝ) : 0 ≤ freund xn q := Real.rpow_nonneg (le_max_right _ _) _

theorem freund_neg {xn : ℝ} (hx : 0 < xn) {q : ℝ} (hq : q ≤ 0) : freund xn q = 0 := by
  unfold freund
  rw [max_eq_right hq, Real.zero_rpow (one_div_pos.2 hx).ne']

theorem freund_cont {xn : ℝ} (hx : 0 < xn) : Continuous (freund xn) :=
  (continuous_id.max continuous_const).rpow_const fun _ => Or.inr (one_div_pos.2 hx).le

theorem freund_int {xn : ℝ} (hx : 0 < xn) (q : ℝ) : 0 ≤ ∫ s in (0:ℝ)..q, freund xn s := by
  rcases le_total 0 q with hq | hq
  · exact intervalIntegral.integral_nonneg hq fun s _ => freund_nonneg xn s
  · rw [intervalIntegral.integral_symm]
    have : ∫ s in q..(0:ℝ), freund xn s = ∫ s in q..(0:ℝ), (0:ℝ) := by
      refine intervalIntegral.integral_congr fun s hs => ?_
      rw [uIcc_of_le hq] at hs
      exact freund_neg hx hs.2
    rw [this]
    simp

theorem cpore_one {ym xn foul y : Fin 1 → ℝ} (hym : ∀ j, 0 < ym j) (hxn : ∀ j, 0 < xn j) :
    cpore ym xn foul y 0 = foul 0 * freund (xn 0) (y 0) := by
  rw [cpore_closed hym hxn]
  simp only [Fin.sum_univ_one]
  have h1 : max (ym 0 * y 0) 0 = ym 0 * max (y 0) 0 := by
    rw [mul_max_of_nonneg _ _ (hym 0).le, mul_zero]
  rw [h1]
  have hx := hxn 0
  have hy := hym 0
  rcases eq_or_lt_of_le (le_max_right (y 0) 0) with h | h
  · rw [freund, ← h]
    rw [Real.zero_rpow (one_div_pos.2 hx).ne']
    simp
  · rw [div_self (mul_pos hy h).ne', one_mul, freund]
    congr 2
    field_simp

theorem cporeAt_one {D : GacDim 1 r z} (hym : ∀ j, 0 < D.ym j) (hxn : ∀ j, 0 < D.xn j) {foul : Fin 1 → ℝ} (hf : 0 ≤ foul 0)
    (u : GacState 1 r z) (k : Fin (r + 1)) (w : Fin (z + 1)) :
    cporeAt D foul u 0 k w = foul 0 * freund (D.xn 0) (u 0 k.castSucc w) := by
  unfold cporeAt
  simp only
  rw [cpore_one hym hxn, if_neg]
  rintro ⟨-, h⟩
  have := mul_nonneg hf (freund_nonneg (D.xn 0) (u 0 k.castSucc w))
  linarith

/-- What drives diffusion. -/
noncomputable def gacPsi (D : GacDim 1 r z) (α q : ℝ) : ℝ := α * freund (D.xn 0) q + D.beds 0 * q

/-- Rate of a bead in the form of the bead energy. -/
theorem gac_bead_energy {jac : Fin r → ℝ} {D : GacDim 1 r z} (g : Spec.BeadGrid jac D.br D.wr) (hym : ∀ j, 0 < D.ym j)
    (hxn : ∀ j, 0 < D.xn j) {cinfl foul fac : Fin 1 → ℝ} (hf : 0 ≤ foul 0) (u : GacState 1 r z) (w : Fin (z + 1)) :
    ∑ k, D.wr k * (gacPsi D (D.bedp 0 * fac 0 * foul 0) (u 0 k.castSucc w) * gacRhs D cinfl foul fac u 0 k.castSucc w) ≤
      gacPsi D (D.bedp 0 * fac 0 * foul 0) (u 0 (Fin.last r).castSucc w) *
        ((Spec.bulk cinfl u 0 w - foul 0 * freund (D.xn 0) (u 0 (Fin.last r).castSucc w)) * (D.stdv 0 * D.dgI 0)) := by
  have hne : ∀ k : Fin r, k.castSucc ≠ Fin.last r := fun k => (Fin.castSucc_lt_last k).ne
  have hbb : ∀ k, gacBB D foul fac u 0 k w =
      ∑ l, D.br k l * gacPsi D (D.bedp 0 * fac 0 * foul 0) (u 0 l.castSucc w) := by
    intro k
    unfold gacBB
    rw [Finset.sum_mul, ← Finset.sum_add_distrib]
    refine Finset.sum_congr rfl fun l _ => ?_
    rw [cporeAt_one hym hxn hf]
    unfold gacPsi
    ring
  have h := bead_energy g 1 ((Spec.bulk cinfl u 0 w - foul 0 * freund (D.xn 0) (u 0 (Fin.last r).castSucc w)) * (D.stdv 0 * D.dgI 0))
    (fun k => gacPsi D (D.bedp 0 * fac 0 * foul 0) (u 0 k.castSucc w)) (fun k => gacRhs D cinfl foul fac u 0 k.castSucc w)
    (fun k hk => by rw [gacRhs_bead, gacBead, if_neg hk, hbb, one_mul])
    (by
      simp only [gacRhs_bead]
      have e : ∀ k : Fin r, gacBead D cinfl foul fac u 0 k.castSucc w = gacBB D foul fac u 0 k.castSucc w := by
        intro k; rw [gacBead, if_neg (hne k)]
      simp only [e]
      rw [gacBead, if_pos rfl]
      by_cases hw : w = 0
      · subst hw
        rw [if_pos rfl, cporeAt_one hym hxn hf, gacWW, Spec.bulk, if_pos rfl]
      · rw [if_neg hw, gacCbs, if_neg hw, cporeAt_one hym hxn hf, gacWW, Spec.bulk, if_neg hw]
        ring)
  rw [h]
  have := (c205_rough g (fun k => gacPsi D (D.bedp 0 * fac 0 * foul 0) (u 0 k.castSucc w))).1
  linarith

/-! ### The potential -/

/-- Potential of the beads. -/
noncomputable def gacPot (D : GacDim 1 r z) (α : ℝ) (u : GacState 1 r z) : ℝ :=
  ∑ w, ∑ k : Fin (r + 1), D.wr k * (α * (∫ s in (0:ℝ)..u 0 k.castSucc w, freund (D.xn 0) s) +
    D.beds 0 / 2 * u 0 k.castSucc w ^ 2)

/-- Content at one place of the bed. -/
noncomputable def gacHold (D : GacDim 1 r z) (u : GacState 1 r z) (w : Fin (z + 1)) : ℝ :=
  u 0 (Fin.last (r + 1)) w + 3 * (1 / D.dgI 0) * ∑ k : Fin (r + 1), D.wr k * u 0 k.castSucc w

/-- Size of a state. -/
noncomputable def gacSize (D : GacDim 1 r z) (α : ℝ) (u : GacState 1 r z) : ℝ :=
  gacPot D α u + ∑ w : Fin z, gacHold D u w.succ ^ 2

/-- A column with one compound that can be run. -/
structure Spec.OneOk (D : GacDim 1 r z) : Prop where
  ym : ∀ j, 0 < D.ym j
  xn : ∀ j, 0 < D.xn j ∧ D.xn j ≤ 1
  beds : 0 < D.beds 0
  bedp : 0 ≤ D.bedp 0
  stdv : 0 < D.stdv 0
  dgI : 0 < D.dgI 0

section size
variable {D : GacDim 1 r z} {jac : Fin r → ℝ}

theorem gacPot_ge (h : Spec.OneOk D) (g : Spec.BeadGrid jac D.br D.wr) {α : ℝ} (hα : 0 ≤ α) (u : GacState 1 r z) (w : Fin (z + 1)) :
    ∑ k : Fin (r + 1), D.wr k * u 0 k.castSucc w ^ 2 ≤ 2 / D.beds 0 * gacPot D α u ∧
      ∑ w, ∑ k : Fin (r + 1), D.wr k * (α * (∫ s in (0:ℝ)..u 0 k.castSucc w, freund (D.xn 0) s)) ≤ gacPot D α u := by
  have hb := h.beds
  have hint : ∀ (w : Fin (z + 1)) (k : Fin (r + 1)), 0 ≤ D.wr k * (α * ∫ s in (0:ℝ)..u 0 k.castSucc w, freund (D.xn 0) s) :=
    fun w k => mul_nonneg (g.wpos k).le (mul_nonneg hα (freund_int (h.xn 0).1 _))
  have hsq : ∀ (w : Fin (z + 1)) (k : Fin (r + 1)), 0 ≤ D.wr k * (D.beds 0 / 2 * u 0 k.castSucc w ^ 2) :=
    fun w k => mul_nonneg (g.wpos k).le (by positivity)
  constructor
  · have h1 : ∑ k : Fin (r + 1), D.wr k * (D.beds 0 / 2 * u 0 k.castSucc w ^ 2) ≤ gacPot D α u := by
      unfold gacPot
      refine le_trans ?_ (Finset.single_le_sum (f := fun w => ∑ k : Fin (r + 1), D.wr k * (α * (∫ s in (0:ℝ)..u 0 k.castSucc w,
        freund (D.xn 0) s) + D.beds 0 / 2 * u 0 k.castSucc w ^ 2)) (fun w _ => ?_) (Finset.mem_univ w))
      · refine Finset.sum_le_sum fun k _ => ?_
        rw [mul_add]
        linarith [hint w k]
      · refine Finset.sum_nonneg fun k _ => ?_
        rw [mul_add]
        exact add_nonneg (hint w k) (hsq w k)
    have h2 : ∑ k : Fin (r + 1), D.wr k * u 0 k.castSucc w ^ 2 =
        2 / D.beds 0 * ∑ k : Fin (r + 1), D.wr k * (D.beds 0 / 2 * u 0 k.castSucc w ^ 2) := by
      rw [Finset.mul_sum]
      refine Finset.sum_congr rfl fun k _ => ?_
      field_simp
    rw [h2]
    exact mul_le_mul_of_nonneg_left h1 (by positivity)
  · unfold gacPot
    refine Finset.sum_le_sum fun w _ => Finset.sum_le_sum fun k _ => ?_
    rw [mul_add]
    linarith [hsq w k]

/-- Bounds on loadings and concentrations by the size. -/
theorem gacSize_bounds (h : Spec.OneOk D) (g : Spec.BeadGrid jac D.br D.wr) : ∃ K, 0 ≤ K ∧ ∀ α u, 0 ≤ α →
    0 ≤ gacSize D α u ∧ (∀ k w, u 0 (Fin.castSucc k) w ^ 2 ≤ K * gacSize D α u) ∧
      (∀ w : Fin z, u 0 (Fin.last (r + 1)) w.succ ^ 2 ≤ K * gacSize D α u) ∧
      (∀ w : Fin z, gacHold D u w.succ ^ 2 ≤ gacSize D α u) ∧ gacPot D α u ≤ gacSize D α u := by
  have hb := h.beds
  have hdg := h.dgI
  set S := ∑ k, D.wr k with hS
  have hS0 : 0 ≤ S := Finset.sum_nonneg fun k _ => (g.wpos k).le
  set dg := 1 / D.dgI 0 with hdgd
  have hR0 : 0 ≤ ∑ k, 1 / D.wr k := Finset.sum_nonneg fun k _ => (one_div_pos.2 (g.wpos k)).le
  set K1 := 2 / D.beds 0 * ∑ k, 1 / D.wr k with hK1
  set K2 := 2 + 18 * dg ^ 2 * S * (2 / D.beds 0) with hK2
  have hK10 : 0 ≤ K1 := by positivity
  have hK20 : 0 ≤ K2 := by positivity
  refine ⟨K1 + K2, by positivity, fun α u hα => ?_⟩
  have hq2 := fun w => (gacPot_ge h g hα u w).1
  have hpot0 : 0 ≤ gacPot D α u := by
    have h1 := hq2 0
    have h2 : 0 ≤ ∑ k : Fin (r + 1), D.wr k * u 0 k.castSucc 0 ^ 2 :=
      Finset.sum_nonneg fun k _ => mul_nonneg (g.wpos k).le (sq_nonneg _)
    by_contra hc
    have := mul_neg_of_pos_of_neg (show 0 < 2 / D.beds 0 by positivity) (not_le.1 hc)
    linarith
  have hsum0 : 0 ≤ ∑ w : Fin z, gacHold D u w.succ ^ 2 := Finset.sum_nonneg fun w _ => sq_nonneg _
  have hpot : gacPot D α u ≤ gacSize D α u := by unfold gacSize; linarith
  have hN0 : 0 ≤ gacSize D α u := hpot0.trans hpot
  have hhold : ∀ w : Fin z, gacHold D u w.succ ^ 2 ≤ gacSize D α u := by
    intro w
    have := Finset.single_le_sum (f := fun w : Fin z => gacHold D u w.succ ^ 2) (fun w _ => sq_nonneg _) (Finset.mem_univ w)
    unfold gacSize
    linarith
  have hq2' : ∀ w, ∑ k : Fin (r + 1), D.wr k * u 0 k.castSucc w ^ 2 ≤ 2 / D.beds 0 * gacSize D α u :=
    fun w => (hq2 w).trans (mul_le_mul_of_nonneg_left hpot (by positivity))
  refine ⟨hN0, fun k w => ?_, fun w => ?_, hhold, hpot⟩
  · have hw := g.wpos k
    have h1 : D.wr k * u 0 k.castSucc w ^ 2 ≤ 2 / D.beds 0 * gacSize D α u :=
      (Finset.single_le_sum (f := fun k : Fin (r + 1) => D.wr k * u 0 k.castSucc w ^ 2)
        (fun j _ => mul_nonneg (g.wpos j).le (sq_nonneg _)) (Finset.mem_univ k)).trans (hq2' w)
    have h2 : 1 / D.wr k ≤ ∑ k, 1 / D.wr k :=
      Finset.single_le_sum (f := fun k => 1 / D.wr k) (fun j _ => (one_div_pos.2 (g.wpos j)).le) (Finset.mem_univ k)
    have h3 : u 0 k.castSucc w ^ 2 ≤ 1 / D.wr k * (2 / D.beds 0 * gacSize D α u) := by
      rw [one_div_mul_eq_div, le_div_iff₀ hw]
      linarith
    have h4 : 1 / D.wr k * (2 / D.beds 0 * gacSize D α u) ≤ K1 * gacSize D α u := by
      have := mul_le_mul_of_nonneg_right h2 (show 0 ≤ 2 / D.beds 0 * gacSize D α u by positivity)
      rw [hK1]
      linarith
    nlinarith [mul_nonneg hK20 hN0]
  · have h1 : (∑ k : Fin (r + 1), D.wr k * u 0 k.castSucc w.succ) ^ 2 ≤
        S * ∑ k : Fin (r + 1), D.wr k * u 0 k.castSucc w.succ ^ 2 :=
      Finset.sum_sq_le_sum_mul_sum_of_sq_le_mul _ (fun k _ => (g.wpos k).le)
        (fun k _ => mul_nonneg (g.wpos k).le (sq_nonneg _)) (fun k _ => le_of_eq (by ring))
    have h2 := mul_le_mul_of_nonneg_left (hq2' w.succ) hS0
    set X := ∑ k : Fin (r + 1), D.wr k * u 0 k.castSucc w.succ with hX
    have h3 : u 0 (Fin.last (r + 1)) w.succ = gacHold D u w.succ - 3 * dg * X := by unfold gacHold; ring
    have h4 := hhold w
    have h5 : (gacHold D u w.succ - 3 * dg * X) ^ 2 ≤ 2 * gacHold D u w.succ ^ 2 + 18 * dg ^ 2 * X ^ 2 := by
      nlinarith [sq_nonneg (gacHold D u w.succ + 3 * dg * X)]
    have h6 : 18 * dg ^ 2 * X ^ 2 ≤ 18 * dg ^ 2 * (S * (2 / D.beds 0 * gacSize D α u)) :=
      mul_le_mul_of_nonneg_left (h1.trans h2) (by positivity)
    rw [h3]
    have h7 : K2 * gacSize D α u = 2 * gacSize D α u + 18 * dg ^ 2 * (S * (2 / D.beds 0 * gacSize D α u)) := by
      rw [hK2]; ring
    nlinarith [mul_nonneg hK10 hN0]

theorem film_growth {a β P q C : ℝ} (ha : 0 ≤ a) (hβ : 0 ≤ β) (hqP : 0 ≤ q * P) :
    (a * P + β * q) * (C - P) ≤ (a / 4 + β / 2) * C ^ 2 + β / 2 * q ^ 2 := by
  have h1 := mul_nonneg ha (sq_nonneg (C / 2 - P))
  have h2 := mul_nonneg hβ (sq_nonneg (C - q))
  have h3 := mul_nonneg hβ hqP
  nlinarith

/-- The size grows at most in proportion to itself. -/
theorem gacSize_rate (h : Spec.OneOk D) (g : Spec.BeadGrid jac D.br D.wr) {A L : ℝ} (hA : 0 ≤ A) (hL : 0 ≤ L) :
    ∃ K, 0 ≤ K ∧ ∀ (M : ℝ) (cinfl foul fac : Fin 1 → ℝ) (u : GacState 1 r z) (α' : ℝ), 0 ≤ foul 0 → 0 ≤ fac 0 →
      D.bedp 0 * fac 0 ≤ A → cinfl 0 ^ 2 ≤ M → α' ≤ L * (D.bedp 0 * fac 0 * foul 0) →
      ∑ w, ∑ k : Fin (r + 1), D.wr k * (α' * (∫ s in (0:ℝ)..u 0 k.castSucc w, freund (D.xn 0) s)) +
        ∑ w, ∑ k, D.wr k * (gacPsi D (D.bedp 0 * fac 0 * foul 0) (u 0 k.castSucc w) * gacRhs D cinfl foul fac u 0 k.castSucc w) +
        ∑ w : Fin z, 2 * gacHold D u w.succ * (-D.dg1 * ∑ w', D.az w.succ w' * Spec.bulk cinfl u 0 w') ≤
      K * (gacSize D (D.bedp 0 * fac 0 * foul 0) u + M) := by
  obtain ⟨K0, hK0, hB⟩ := gacSize_bounds h g
  have hb := h.beds
  have hf : 0 < D.stdv 0 * D.dgI 0 := mul_pos h.stdv h.dgI
  set f := D.stdv 0 * D.dgI 0 with hfd
  set Kf := f * ((A / 4 + D.beds 0 / 2) * (K0 + 1) + D.beds 0 / 2 * K0) with hKf
  set Ka : Fin z → ℝ := fun w => 1 + D.dg1 ^ 2 * ((∑ w', D.az w.succ w' ^ 2) * ((z + 1) * (K0 + 1))) with hKa
  have hKf0 : 0 ≤ Kf := by positivity
  have hKa0 : ∀ w, 0 ≤ Ka w := by
    intro w
    have : 0 ≤ ∑ w', D.az w.succ w' ^ 2 := Finset.sum_nonneg fun _ _ => sq_nonneg _
    positivity
  refine ⟨L + (∑ _w : Fin (z + 1), Kf) + ∑ w, Ka w, ?_, ?_⟩
  · have h1 : 0 ≤ ∑ _w : Fin (z + 1), Kf := Finset.sum_nonneg fun _ _ => hKf0
    have h2 : 0 ≤ ∑ w, Ka w := Finset.sum_nonneg fun w _ => hKa0 w
    positivity
  intro M cinfl foul fac u α' hfoul hfac ha hM hα'
  have ha0 : 0 ≤ D.bedp 0 * fac 0 := mul_nonneg h.bedp hfac
  set α := D.bedp 0 * fac 0 * foul 0 with hα
  have hα0 : 0 ≤ α := mul_nonneg ha0 hfoul
  obtain ⟨hN0, hq, hc, hhold, hpot⟩ := hB α u hα0
  set N := gacSize D α u with hN
  have hM0 : 0 ≤ M := (sq_nonneg _).trans hM
  have hC : ∀ w, Spec.bulk cinfl u 0 w ^ 2 ≤ (K0 + 1) * (N + M) := by
    intro w
    have hpos : 0 ≤ K0 * M := mul_nonneg hK0 hM0
    have hpos' : 0 ≤ K0 * N := mul_nonneg hK0 hN0
    induction w using Fin.cases with
    | zero => rw [Spec.bulk, if_pos rfl]; nlinarith
    | succ w => rw [Spec.bulk, if_neg (Fin.succ_ne_zero w)]; have := hc w; nlinarith
  rw [add_mul, add_mul, Finset.sum_mul, Finset.sum_mul]
  refine add_le_add (add_le_add ?_ (Finset.sum_le_sum fun w _ => ?_)) (Finset.sum_le_sum fun w _ => ?_)
  · have h1 : ∑ w, ∑ k : Fin (r + 1), D.wr k * (α' * (∫ s in (0:ℝ)..u 0 k.castSucc w, freund (D.xn 0) s)) ≤
        L * ∑ w, ∑ k : Fin (r + 1), D.wr k * (α * (∫ s in (0:ℝ)..u 0 k.castSucc w, freund (D.xn 0) s)) := by
      rw [Finset.mul_sum]
      refine Finset.sum_le_sum fun w _ => ?_
      rw [Finset.mul_sum]
      refine Finset.sum_le_sum fun k _ => ?_
      have h2 := mul_le_mul_of_nonneg_right hα' (freund_int (h.xn 0).1 (u 0 k.castSucc w))
      have h3 := mul_le_mul_of_nonneg_left h2 (g.wpos k).le
      linarith
    have h2 := mul_le_mul_of_nonneg_left ((gacPot_ge h g hα0 u 0).2.trans hpot) hL
    have h3 := mul_nonneg hL hM0
    rw [mul_add]
    linarith
  · refine (gac_bead_energy g h.ym (fun j => (h.xn j).1) hfoul u w).trans ?_
    have hqP : 0 ≤ u 0 (Fin.last r).castSucc w * (foul 0 * freund (D.xn 0) (u 0 (Fin.last r).castSucc w)) := by
      rcases le_total (u 0 (Fin.last r).castSucc w) 0 with hn | hn
      · rw [freund_neg (h.xn 0).1 hn]; simp
      · exact mul_nonneg hn (mul_nonneg hfoul (freund_nonneg _ _))
    have h1 := film_growth (C := Spec.bulk cinfl u 0 w) ha0 hb.le hqP
    have e : gacPsi D α (u 0 (Fin.last r).castSucc w) = D.bedp 0 * fac 0 * (foul 0 * freund (D.xn 0) (u 0 (Fin.last r).castSucc w)) +
        D.beds 0 * u 0 (Fin.last r).castSucc w := by
      unfold gacPsi; rw [hα]; ring
    rw [e]
    have h2 : (D.bedp 0 * fac 0 / 4 + D.beds 0 / 2) * Spec.bulk cinfl u 0 w ^ 2 ≤
        (A / 4 + D.beds 0 / 2) * ((K0 + 1) * (N + M)) :=
      mul_le_mul (by linarith) (hC w) (sq_nonneg _) (by positivity)
    have h3 : D.beds 0 / 2 * u 0 (Fin.last r).castSucc w ^ 2 ≤ D.beds 0 / 2 * (K0 * (N + M)) := by
      refine mul_le_mul_of_nonneg_left ?_ (by positivity)
      have := hq (Fin.last r) w
      have := mul_nonneg hK0 hM0
      linarith
    have h4 := mul_le_mul_of_nonneg_left (h1.trans (add_le_add h2 h3)) hf.le
    rw [hKf]
    linarith
  · set X := ∑ w', D.az w.succ w' * Spec.bulk cinfl u 0 w' with hX
    have h1 : X ^ 2 ≤ (∑ w', D.az w.succ w' ^ 2) * ∑ w', Spec.bulk cinfl u 0 w' ^ 2 := Finset.sum_mul_sq_le_sq_mul_sq _ _ _
    have h2 : ∑ w', Spec.bulk cinfl u 0 w' ^ 2 ≤ (z + 1) * ((K0 + 1) * (N + M)) := by
      refine (Finset.sum_le_sum fun w' _ => hC w').trans ?_
      rw [Finset.sum_const, Finset.card_univ, Fintype.card_fin, nsmul_eq_mul]
      push_cast
      exact le_rfl
    have hA2 : 0 ≤ ∑ w', D.az w.succ w' ^ 2 := Finset.sum_nonneg fun _ _ => sq_nonneg _
    have h3 := h1.trans (mul_le_mul_of_nonneg_left h2 hA2)
    have h4 := mul_le_mul_of_nonneg_left h3 (sq_nonneg D.dg1)
    have h5 : 2 * gacHold D u w.succ * (-D.dg1 * X) ≤ gacHold D u w.succ ^ 2 + D.dg1 ^ 2 * X ^ 2 := by
      nlinarith [sq_nonneg (gacHold D u w.succ + D.dg1 * X)]
    have h6 := hhold w
    simp only [hKa]
    nlinarith

/-! ### Runs -/

theorem gacSize_deriv (h : Spec.OneOk D) (g : Spec.BeadGrid jac D.br D.wr) {cinfl foul fac : Fin 1 → ℝ} {α : ℝ → ℝ} {α' t : ℝ}
    {s : Set ℝ} {y : ℝ → GacState 1 r z} (hα : HasDerivWithinAt α α' s t) (hαt : α t = D.bedp 0 * fac 0 * foul 0)
    (hy : HasDerivWithinAt y (gacRhs D cinfl foul fac (y t)) s t) :
    HasDerivWithinAt (fun t => gacSize D (α t) (y t))
      (∑ w, ∑ k : Fin (r + 1), D.wr k * (α' * (∫ s in (0:ℝ)..y t 0 k.castSucc w, freund (D.xn 0) s)) +
        ∑ w, ∑ k, D.wr k * (gacPsi D (D.bedp 0 * fac 0 * foul 0) (y t 0 k.castSucc w) *
          gacRhs D cinfl foul fac (y t) 0 k.castSucc w) +
        ∑ w : Fin z, 2 * gacHold D (y t) w.succ * (-D.dg1 * ∑ w', D.az w.succ w' * Spec.bulk cinfl (y t) 0 w')) s t := by
  have hc : ∀ a w, HasDerivWithinAt (fun t => y t 0 a w) (gacRhs D cinfl foul fac (y t) 0 a w) s t := fun a w =>
    hasDerivWithinAt_pi.1 (hasDerivWithinAt_pi.1 (hasDerivWithinAt_pi.1 hy 0) a) w
  have hI : ∀ x, HasDerivAt (fun x => ∫ s in (0:ℝ)..x, freund (D.xn 0) s) (freund (D.xn 0) x) x :=
    fun x => ((freund_cont (h.xn 0).1).integral_hasStrictDerivAt 0 x).hasDerivAt
  unfold gacSize
  refine HasDerivWithinAt.add ?_ (HasDerivWithinAt.fun_sum fun w _ => ?_)
  · rw [← Finset.sum_add_distrib]
    unfold gacPot
    refine HasDerivWithinAt.fun_sum fun w _ => ?_
    rw [← Finset.sum_add_distrib]
    refine HasDerivWithinAt.fun_sum fun k _ => ?_
    rw [← mul_add]
    refine HasDerivWithinAt.const_mul _ ?_
    have e1 := hα.mul ((hI (y t 0 k.castSucc w)).comp_hasDerivWithinAt t (hc k.castSucc w))
    have e2 := ((hc k.castSucc w).pow 2).const_mul (D.beds 0 / 2)
    refine HasDerivWithinAt.congr_deriv (e1.add e2) ?_
    unfold gacPsi
    rw [← hαt]
    simp
    ring
  · have e1 : HasDerivWithinAt (fun t => gacHold D (y t) w.succ)
        (-D.dg1 * ∑ w', D.az w.succ w' * Spec.bulk cinfl (y t) 0 w') s t := by
      rw [← c49_exchange D (g.wpos (Fin.last r)).ne' cinfl foul fac (y t) 0 (dg := 1 / D.dgI 0) (one_div_pos.2 h.dgI).ne'
        (by rw [one_div_one_div]) (Fin.succ_ne_zero w)]
      unfold gacHold
      exact (hc _ _).add (HasDerivWithinAt.const_mul _ (HasDerivWithinAt.fun_sum fun k _ => (hc _ _).const_mul _))
    refine HasDerivWithinAt.congr_deriv (e1.pow 2) ?_
    simp

/-- C215, under inputs that change smoothly. -/
theorem c215_smooth (h : Spec.OneOk D) (g : Spec.BeadGrid jac D.br D.wr) {cinfl foul fac : ℝ → Fin 1 → ℝ} {a b : ℝ}
    (hab : a ≤ b) (h1 : ContinuousOn cinfl (Icc a b)) (h2 : ContinuousOn foul (Icc a b)) (h3 : ContinuousOn fac (Icc a b))
    (hfoul : ∀ t ∈ Icc a b, 0 ≤ foul t 0) (hfac : ∀ t ∈ Icc a b, 0 ≤ fac t 0) {α' : ℝ → ℝ} {L : ℝ}
    (hα : ∀ t ∈ Icc a b, HasDerivWithinAt (fun t => D.bedp 0 * fac t 0 * foul t 0) (α' t) (Icc a b) t)
    (hL : ∀ t ∈ Icc a b, α' t ≤ L * (D.bedp 0 * fac t 0 * foul t 0)) (u : GacState 1 r z) :
    ∃ y, y a = u ∧ Spec.Solves gacComp (fun t u => gacRhs D (cinfl t) (foul t) (fac t) u) a b y := by
  obtain ⟨A, hA⟩ := isCompact_Icc.exists_bound_of_continuousOn (continuousOn_pi.1 h3 0)
  obtain ⟨m, hm⟩ := isCompact_Icc.exists_bound_of_continuousOn (continuousOn_pi.1 h1 0)
  have hA0 : 0 ≤ A := (norm_nonneg _).trans (hA a ⟨le_rfl, hab⟩)
  set M := m ^ 2 with hMd
  have hM : ∀ t ∈ Icc a b, cinfl t 0 ^ 2 ≤ M := by
    intro t ht
    have := hm t ht
    rw [Real.norm_eq_abs] at this
    rw [← sq_abs, hMd]
    exact pow_le_pow_left₀ (abs_nonneg _) this 2
  have hα0 : ∀ t ∈ Icc a b, 0 ≤ D.bedp 0 * fac t 0 * foul t 0 := fun t ht =>
    mul_nonneg (mul_nonneg h.bedp (hfac t ht)) (hfoul t ht)
  have hL' : ∀ t ∈ Icc a b, α' t ≤ |L| * (D.bedp 0 * fac t 0 * foul t 0) := fun t ht =>
    (hL t ht).trans (mul_le_mul_of_nonneg_right (le_abs_self L) (hα0 t ht))
  obtain ⟨K, hK, hrate⟩ := gacSize_rate h g (mul_nonneg h.bedp hA0) (abs_nonneg L)
  obtain ⟨K0, hK0, hB⟩ := gacSize_bounds h g
  set Nmax := (gacSize D (D.bedp 0 * fac a 0 * foul a 0) u + M) * Real.exp (K * (b - a)) with hNmax
  have hM0 : 0 ≤ M := sq_nonneg _
  have hLip := gac_lip D h.ym h.xn
  simp only [solves_gac]
  generalize hF : (fun x : GacForcing 1 × GacState 1 r z => gacRhs D x.1.1 x.1.2.1 x.1.2.2 x.2) = F at hLip
  have hF' : ∀ a b c u, gacRhs D a b c u = F ((a, b, c), u) := fun a b c u => by rw [← hF]
  simp only [hF']
  refine global_forced (c := fun t => (cinfl t, foul t, fac t)) (F := F) hLip hab (h1.prodMk (h2.prodMk h3))
    (R := 1 + K0 * Nmax + |u 0 (Fin.last (r + 1)) 0|) ?_
  intro T hT y hy0 hy
  simp only [← hF'] at hy
  have hsub : Icc a T ⊆ Icc a b := Icc_subset_Icc_right hT.2
  have hTT : T ∈ Icc a T := ⟨hT.1, le_rfl⟩
  have hgrow := growth_bound (K := K) (M := M)
    (fun t ht => gacSize_deriv (α := fun t => D.bedp 0 * fac t 0 * foul t 0) h g ((hα t (hsub ht)).mono hsub) rfl (hy t ht))
    (fun t ht => hrate M (cinfl t) (foul t) (fac t) (y t) (α' t) (hfoul t (hsub ht)) (hfac t (hsub ht)) (by
      have := hA t (hsub ht)
      rw [Real.norm_eq_abs] at this
      exact mul_le_mul_of_nonneg_left ((le_abs_self _).trans this) h.bedp) (hM t (hsub ht)) (hL' t (hsub ht))) T hTT
  obtain ⟨hN0, hq, hc, -, -⟩ := hB _ (y T) (hα0 T hT)
  have hNa : 0 ≤ gacSize D (D.bedp 0 * fac a 0 * foul a 0) u := (hB _ u (hα0 a ⟨le_rfl, hab⟩)).1
  have hNT : gacSize D (D.bedp 0 * fac T 0 * foul T 0) (y T) ≤ Nmax := by
    rw [hy0] at hgrow
    have h5 : Real.exp (K * (T - a)) ≤ Real.exp (K * (b - a)) :=
      Real.exp_le_exp.2 (mul_le_mul_of_nonneg_left (by linarith [hT.2]) hK)
    have h6 := mul_le_mul_of_nonneg_left h5 (add_nonneg hNa hM0)
    rw [hNmax]
    linarith
  have hKN := mul_le_mul_of_nonneg_left hNT hK0
  have hKN0 : 0 ≤ K0 * Nmax := (mul_nonneg hK0 hN0).trans hKN
  have habs : ∀ x : ℝ, x ^ 2 ≤ K0 * gacSize D (D.bedp 0 * fac T 0 * foul T 0) (y T) →
      ‖x‖ ≤ 1 + K0 * Nmax + |u 0 (Fin.last (r + 1)) 0| := by
    intro x hx
    have h5 : |x| ≤ 1 + x ^ 2 := by
      rw [← sq_abs]
      nlinarith [sq_nonneg (|x| - 1), abs_nonneg x]
    rw [Real.norm_eq_abs]
    linarith [abs_nonneg (u 0 (Fin.last (r + 1)) 0)]
  have hin : y T 0 (Fin.last (r + 1)) 0 = u 0 (Fin.last (r + 1)) 0 := by
    have hd : ∀ t ∈ Icc a T, HasDerivWithinAt (fun t => y t 0 (Fin.last (r + 1)) 0) 0 (Icc a T) t := by
      intro t ht
      have h5 := hasDerivWithinAt_pi.1 (hasDerivWithinAt_pi.1 (hasDerivWithinAt_pi.1 (hy t ht) 0) (Fin.last (r + 1))) 0
      rwa [gacRhs_liq, gacLiq, if_pos rfl] at h5
    rw [← hy0]
    exact constant_of_has_deriv_right_zero (f := fun t => y t 0 (Fin.last (r + 1)) 0) (fun t ht => (hd t ht).continuousWithinAt)
      (fun t ht => (hd t ⟨ht.1, ht.2.le⟩).mono_of_mem_nhdsWithin (Icc_mem_nhdsGE_of_mem ht)) T hTT
  have hR : 0 ≤ 1 + K0 * Nmax + |u 0 (Fin.last (r + 1)) 0| := by positivity
  refine (pi_norm_le_iff_of_nonneg hR).2 fun i => (pi_norm_le_iff_of_nonneg hR).2 fun k => (pi_norm_le_iff_of_nonneg hR).2 fun w => ?_
  obtain rfl : i = 0 := Subsingleton.elim _ _
  induction k using Fin.lastCases with
  | cast k => exact habs _ (hq k w)
  | last =>
    induction w using Fin.cases with
    | zero => rw [hin, Real.norm_eq_abs]; linarith
    | succ w => exact habs _ (hc w)

/-- A table read in between its whole minutes. -/
noncomputable def lerpAt (A : ℕ → ℝ) (τ t : ℝ) : ℝ := lerp (A ⌊t / τ⌋₊) (A (⌊t / τ⌋₊ + 1)) (t / τ - ⌊t / τ⌋₊)

/-- Within one minute it is a straight line. -/
theorem lerpAt_piece (A : ℕ → ℝ) {τ : ℝ} (hτ : 0 < τ) (N : ℕ) {t : ℝ} (ht : t ∈ Icc (N * τ) ((N + 1) * τ)) :
    lerpAt A τ t = (A (N + 1) - A N) * (t / τ - N) + A N := by
  have hle : (N : ℝ) ≤ t / τ := (le_div_iff₀ hτ).2 ht.1
  rcases eq_or_lt_of_le ht.2 with h | h
  · have e : t / τ = ((N + 1 : ℕ) : ℝ) := by rw [h]; push_cast; field_simp
    unfold lerpAt lerp
    rw [e, Nat.floor_natCast]
    push_cast
    ring
  · have hlt : t / τ < N + 1 := (div_lt_iff₀ hτ).2 h
    have e : ⌊t / τ⌋₊ = N := (Nat.floor_eq_iff ((Nat.cast_nonneg N).trans hle)).2 ⟨hle, hlt⟩
    unfold lerpAt lerp
    rw [e]

/-- C215. With inputs as the code reads them from their tables, fouling and tortuosity factors being positive, the column runs
from every state for as long as wanted. -/
theorem c215_tables (h : Spec.OneOk D) (g : Spec.BeadGrid jac D.br D.wr) (Ac Af At : ℕ → ℝ) (hf : ∀ k, 0 < Af k) (ht : ∀ k, 0 < At k)
    {τ : ℝ} (hτ : 0 < τ) (u : GacState 1 r z) (N : ℕ) :
    ∃ y, y 0 = u ∧ Spec.Solves gacComp
      (fun t u => gacRhs D (fun _ => lerpAt Ac τ t) (fun _ => lerpAt Af τ t) (fun _ => lerpAt At τ t) u) 0 (N * τ) y := by
  have hline : ∀ (A : ℕ → ℝ) (N : ℕ) (t : ℝ), HasDerivAt (fun t => (A (N + 1) - A N) * (t / τ - N) + A N)
      ((A (N + 1) - A N) * (1 / τ)) t := by
    intro A N t
    exact ((((hasDerivAt_id t).div_const τ).sub_const (N : ℝ)).const_mul _).add_const _
  have hpos : ∀ A : ℕ → ℝ, (∀ k, 0 < A k) → ∀ N : ℕ, ∀ t ∈ Icc (N * τ) ((N + 1) * τ), 0 < lerpAt A τ t := by
    intro A hA N t ht
    rw [lerpAt_piece A hτ N ht]
    have h1 : (N : ℝ) ≤ t / τ := (le_div_iff₀ hτ).2 ht.1
    have h2 : t / τ ≤ N + 1 := (div_le_iff₀ hτ).2 ht.2
    have h3 := hA N
    have h4 := hA (N + 1)
    rcases eq_or_lt_of_le h1 with h5 | h5
    · rw [← h5]; simpa using h3
    · have := mul_pos h4 (sub_pos.2 h5)
      have := mul_nonneg h3.le (sub_nonneg.2 h2)
      nlinarith
  induction N with
  | zero =>
    refine ⟨fun _ => u, rfl, ?_⟩
    rw [solves_gac]
    intro t ht
    rw [Nat.cast_zero, zero_mul] at ht ⊢
    have : t = 0 := le_antisymm ht.2 ht.1
    subst this
    rw [Icc_self]
    exact hasDerivWithinAt_iff_hasFDerivWithinAt.2 (HasFDerivWithinAt.of_subsingleton subsingleton_singleton)
  | succ N ih =>
    obtain ⟨y1, e1, hy1⟩ := ih
    have hNτ : (N : ℝ) * τ ≤ (N + 1) * τ := by nlinarith
    have hcont : ∀ A : ℕ → ℝ, ContinuousOn (fun t => lerpAt A τ t) (Icc (N * τ) ((N + 1) * τ)) := fun A =>
      (lerp_continuous A hτ).mono fun t ht => (mul_nonneg (Nat.cast_nonneg N) hτ.le).trans ht.1
    set I := Icc ((N : ℝ) * τ) ((N + 1) * τ) with hI
    set lt : ℝ → ℝ := fun t => (At (N + 1) - At N) * (t / τ - N) + At N with hlt
    set lf : ℝ → ℝ := fun t => (Af (N + 1) - Af N) * (t / τ - N) + Af N with hlf
    have hα : ∀ t ∈ I, HasDerivWithinAt (fun t => D.bedp 0 * lerpAt At τ t * lerpAt Af τ t)
        (D.bedp 0 * ((At (N + 1) - At N) * (1 / τ) * lf t + lt t * ((Af (N + 1) - Af N) * (1 / τ)))) I t := by
      intro t ht
      have h1 := (((hline At N t).mul (hline Af N t)).const_mul (D.bedp 0)).hasDerivWithinAt (s := I)
      refine h1.congr (fun s hs => ?_) ?_
      · rw [lerpAt_piece At hτ N hs, lerpAt_piece Af hτ N hs]; simp [mul_assoc]
      · rw [lerpAt_piece At hτ N ht, lerpAt_piece Af hτ N ht]; simp [mul_assoc]
    have hbound : ∃ L : ℝ, ∀ t ∈ I, D.bedp 0 * ((At (N + 1) - At N) * (1 / τ) * lf t + lt t * ((Af (N + 1) - Af N) * (1 / τ))) ≤
        L * (D.bedp 0 * lerpAt At τ t * lerpAt Af τ t) := by
      have hc1 : ContinuousOn (fun t => ((At (N + 1) - At N) * (1 / τ) * lf t + lt t * ((Af (N + 1) - Af N) * (1 / τ))) /
          (lerpAt At τ t * lerpAt Af τ t)) I := by
        refine ContinuousOn.div ?_ ((hcont At).mul (hcont Af)) (fun t ht' => ?_)
        · have : Continuous fun t => (At (N + 1) - At N) * (1 / τ) * lf t + lt t * ((Af (N + 1) - Af N) * (1 / τ)) := by
            simp only [hlf, hlt]; fun_prop
          exact this.continuousOn
        · exact (mul_pos (hpos At ht N t ht') (hpos Af hf N t ht')).ne'
      obtain ⟨L, hL⟩ := isCompact_Icc.exists_bound_of_continuousOn hc1
      refine ⟨L, fun t ht' => ?_⟩
      have hp := mul_pos (hpos At ht N t ht') (hpos Af hf N t ht')
      have h1 := (le_abs_self _).trans (hL t ht')
      rw [div_le_iff₀ hp] at h1
      have h2 := mul_le_mul_of_nonneg_left h1 h.bedp
      linarith
    obtain ⟨L, hL⟩ := hbound
    obtain ⟨y2, e2, hy2⟩ := c215_smooth h g (cinfl := fun t _ => lerpAt Ac τ t) (foul := fun t _ => lerpAt Af τ t)
      (fac := fun t _ => lerpAt At τ t) hNτ (continuousOn_pi.2 fun _ => hcont Ac) (continuousOn_pi.2 fun _ => hcont Af)
      (continuousOn_pi.2 fun _ => hcont At) (fun t ht' => (hpos Af hf N t ht').le) (fun t ht' => (hpos At ht N t ht').le)
      hα hL (y1 (N * τ))
    rw [solves_gac] at hy1 hy2
    obtain ⟨y, ey, hy⟩ := glue_forced (f := fun t u => gacRhs D (fun _ => lerpAt Ac τ t) (fun _ => lerpAt Af τ t)
      (fun _ => lerpAt At τ t) u) (mul_nonneg (Nat.cast_nonneg N) hτ.le) hNτ hy1 hy2 e2
    refine ⟨y, (ey 0 ⟨le_rfl, mul_nonneg (Nat.cast_nonneg N) hτ.le⟩).trans e1, ?_⟩
    rw [solves_gac]
    push_cast
    exact hy

/-- C215. So over every time within the tables there is exactly one run from every state. -/
theorem c215_sampled (h : Spec.OneOk D) (g : Spec.BeadGrid jac D.br D.wr) {len : ℕ} (Ac Af At : Fin 1 → ℕ → ℝ)
    (hf : ∀ k, 0 < Af 0 k) (ht : ∀ k, 0 < At 0 k) {τ t1 : ℝ} (hτ : 0 < τ) (hlen : ⌊t1 / τ⌋₊ + 1 < len)
    (u : GacState 1 r z) :
    ∃ cinfl foul fac : ℝ → Fin 1 → ℝ,
      (∀ t ∈ Icc 0 t1, ∀ i, gacSample len (Ac i) τ t = .ok (cinfl t i) ∧
        gacSample len (Af i) τ t = .ok (foul t i) ∧ gacSample len (At i) τ t = .ok (fac t i)) ∧
      (∃ y, y 0 = u ∧ Spec.Solves gacComp (fun t u => gacRhs D (cinfl t) (foul t) (fac t) u) 0 t1 y) ∧
      ∀ y1 y2, Spec.Solves gacComp (fun t u => gacRhs D (cinfl t) (foul t) (fac t) u) 0 t1 y1 →
        Spec.Solves gacComp (fun t u => gacRhs D (cinfl t) (foul t) (fac t) u) 0 t1 y2 → y1 0 = u → y2 0 = u →
        ∀ t ∈ Icc 0 t1, y1 t = y2 t := by
  have hs : ∀ A : Fin 1 → ℕ → ℝ, ∀ i, ∀ t ∈ Icc 0 t1, gacSample len (A i) τ t = .ok (lerpAt (A 0) τ t) := by
    intro A i t ht
    obtain rfl : i = 0 := Subsingleton.elim _ _
    have hle : ⌊t / τ⌋₊ ≤ ⌊t1 / τ⌋₊ := Nat.floor_le_floor (div_le_div_of_nonneg_right ht.2 hτ.le)
    unfold gacSample
    simp only
    rw [if_pos (by omega)]
    rfl
  have hc : ∀ A : Fin 1 → ℕ → ℝ, ContinuousOn (fun t (_ : Fin 1) => lerpAt (A 0) τ t) (Icc 0 t1) := fun A =>
    continuousOn_pi.2 fun _ => (lerp_continuous (A 0) hτ).mono Icc_subset_Ici_self
  refine ⟨fun t _ => lerpAt (Ac 0) τ t, fun t _ => lerpAt (Af 0) τ t, fun t _ => lerpAt (At 0) τ t,
    fun t ht i => ⟨hs _ _ t ht, hs _ _ t ht, hs _ _ t ht⟩, ?_, fun y1 y2 h1 h2 e1 e2 => ?_⟩
  · obtain ⟨y, e, hy⟩ := c215_tables h g (Ac 0) (Af 0) (At 0) hf ht hτ u (⌊t1 / τ⌋₊ + 1)
    have hle : t1 ≤ ((⌊t1 / τ⌋₊ + 1 : ℕ) : ℝ) * τ := by
      have := (Nat.lt_floor_add_one (t1 / τ)).le
      rw [div_le_iff₀ hτ] at this
      push_cast
      exact this
    rw [solves_gac] at hy
    refine ⟨y, e, ?_⟩
    rw [solves_gac]
    exact fun t ht => (hy t ⟨ht.1, ht.2.trans hle⟩).mono (Icc_subset_Icc_right hle)
  · exact c211_unique D h.ym h.xn (hc _) (hc _) (hc _) h1 h2 (e1.trans e2.symm)

end size

/-- Specification: a column and compound with positive physical data, surface diffusing no faster than pores. -/
structure Spec.OnePhysical (G : GacCol) (c : GacComp) : Prop where
  ok : c.Ok
  xn : c.xn ≤ 1
  ebed : 0 < G.ebed ∧ G.ebed < 1
  epor : 0 ≤ G.epor
  rhop : 0 < G.rhop
  tau : 0 < G.tau
  rad : 0 < G.rad
  tortu : 0 < tortu0 G
  kf : 0 < kfUsed G c
  dp : 0 < dpUsed G c
  ds : 0 ≤ dsUsed G c ∧ dsUsed G c ≤ dpUsed G c

theorem onePhysical_ok {G : GacCol} {c : GacComp} (h : Spec.OnePhysical G c) (wr : Fin (r + 1) → ℝ)
    (br : Fin (r + 1) → Fin (r + 1) → ℝ) (az : Fin (z + 1) → Fin (z + 1) → ℝ) :
    Spec.OneOk (gacDim G (fun _ : Fin 1 => c) wr br az) ∧ 0 < tconvOf G (fun _ : Fin 1 => c) := by
  have he := h.ebed
  have h1e : 0 < 1 - G.ebed := by linarith [he.2]
  have hr := h.rhop
  have ht := h.tau
  have hd := h.rad
  have htt := h.tortu
  have hep := h.epor
  have hkf := h.kf
  have hdp := h.dp
  have hqe := qe_pos h.ok
  have hcb := cb0_pos h.ok
  have hdgs : 0 < dgsOf G c := by
    unfold dgsOf
    have := he.1
    positivity
  have hdgp : 0 ≤ dgpOf G := by
    unfold dgpOf
    have := he.1
    positivity
  have hdg : 0 < dgOf G c := by unfold dgOf; linarith
  have hdgt : 0 < dgtOf G (fun _ : Fin 1 => c) := by
    unfold dgtOf; rw [Fin.sum_univ_one]; exact hdg
  have hratio : 0 ≤ dRatio G c ∧ dRatio G c ≤ 1 :=
    ⟨div_nonneg h.ds.1 hdp.le, div_le_one_of_le₀ h.ds.2 hdp.le⟩
  have heds : 0 < edsOf G c := by
    unfold edsOf
    simp only
    split
    · norm_num
    · rename_i hn
      exact lt_of_lt_of_le (by norm_num) (not_lt.1 hn)
  have hedp : 0 ≤ edpOf G c := by
    unfold edpOf
    positivity
  have hq : 0 < dgtOf G (fun _ : Fin 1 => c) / dgOf G c := div_pos hdgt hdg
  refine ⟨⟨ym_pos fun _ => h.ok, fun _ => ⟨h.ok.2.1, h.xn⟩, ?_, ?_, ?_, one_div_pos.2 hdg⟩, ?_⟩
  · exact mul_pos (add_pos_of_pos_of_nonneg heds (mul_nonneg hratio.1 hedp)) hq
  · exact mul_nonneg (mul_nonneg hedp (by linarith [hratio.2])) hq.le
  · show 0 < stdvOf G (fun _ : Fin 1 => c) 0
    unfold stdvOf
    have := he.1
    positivity
  · unfold tconvOf dg1Of
    positivity

/-- C215. For a column as the code sets it up. -/
theorem c215_column {G : GacCol} {c : GacComp} (h : Spec.OnePhysical G c) {jac : Fin r → ℝ} {wr : Fin (r + 1) → ℝ}
    {br : Fin (r + 1) → Fin (r + 1) → ℝ} (g : Spec.BeadGrid jac br wr) (az : Fin (z + 1) → Fin (z + 1) → ℝ) {len : ℕ}
    (Ac Af At : Fin 1 → ℕ → ℝ) (hf : ∀ k, 0 < Af 0 k) (ht : ∀ k, 0 < At 0 k) {t1 : ℝ}
    (hlen : ⌊t1 / tconvOf G (fun _ : Fin 1 => c)⌋₊ + 1 < len) (u : GacState 1 r z) :
    ∃ cinfl foul fac : ℝ → Fin 1 → ℝ,
      (∀ t ∈ Icc 0 t1, ∀ i, gacSample len (Ac i) (tconvOf G (fun _ : Fin 1 => c)) t = .ok (cinfl t i) ∧
        gacSample len (Af i) (tconvOf G (fun _ : Fin 1 => c)) t = .ok (foul t i) ∧
        gacSample len (At i) (tconvOf G (fun _ : Fin 1 => c)) t = .ok (fac t i)) ∧
      (∃ y, y 0 = u ∧ Spec.Solves gacComp
        (fun t u => gacRhs (gacDim G (fun _ : Fin 1 => c) wr br az) (cinfl t) (foul t) (fac t) u) 0 t1 y) ∧
      ∀ y1 y2, Spec.Solves gacComp
          (fun t u => gacRhs (gacDim G (fun _ : Fin 1 => c) wr br az) (cinfl t) (foul t) (fac t) u) 0 t1 y1 →
        Spec.Solves gacComp
          (fun t u => gacRhs (gacDim G (fun _ : Fin 1 => c) wr br az) (cinfl t) (foul t) (fac t) u) 0 t1 y2 →
        y1 0 = u → y2 0 = u → ∀ t ∈ Icc 0 t1, y1 t = y2 t :=
  c215_sampled (onePhysical_ok h wr br az).1 (jac := jac) g Ac Af At hf ht (onePhysical_ok h wr br az).2 hlen u

/-- There is such a column, with coefficients given by the user. -/
example : Spec.OnePhysical ⟨0.64, 0.8, 0.4, 300, 0.05, 5, 1, 0.01, 1, 10, true⟩ ⟨100, 1 / 2, 131, 90, 3, 0.003, 1e-6, 1e-9⟩ := by
  refine ⟨?_, ?_, ?_, ?_, ?_, ?_, ?_, ?_, ?_, ?_, ?_⟩ <;>
    norm_num [GacComp.Ok, tortu0, kfUsed, dpUsed, dsUsed]

end WTM
