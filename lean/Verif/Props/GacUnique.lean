import Verif.Lemmas.Lip
import Verif.Props.GacColumn
import Verif.Props.Balance
import Verif.Props.Pac

/-! C211: runs of the carbon models exist and are determined by their start. -/
set_option autoImplicit false
namespace WTM
open BigOperators Set Topology

/-! ### Powdered carbon -/

section pac
variable {m nd : ℕ}

theorem pacCp_lip (p : Pac m) (hx : ∀ i, 0 < (p.comp i).xni ∧ (p.comp i).xni ≤ 1) (k : Fin (nd + 1)) (i : Fin m) :
    LocallyLipschitz fun y : PacY nd m => p.cp y k i := by
  have e : ∀ y : PacY nd m, p.cp y k i = (max (y.1 k i / p.rho / (p.comp i).K) 0) ^ (1 / (p.comp i).xni) := by
    intro y
    unfold Pac.cp
    simp only
    congr 1
    split
    · rw [max_eq_right (by linarith)]
    · rw [max_eq_left (by linarith)]
  simp only [e]
  have hy : LocallyLipschitz fun y : PacY nd m => y.1 k i := by
    have : ContDiff ℝ 1 fun y : PacY nd m => y.1 k i := by fun_prop
    exact this.locallyLipschitz
  exact lip_rpow ((one_le_div (hx i).1).2 (hx i).2) (((lip_div (lip_div hy _) _).max_const 0))

/-- The rates of a powdered carbon contactor are locally Lipschitz for exponents at most one. -/
theorem pac_lip (p : Pac m) (hx : ∀ i, 0 < (p.comp i).xni ∧ (p.comp i).xni ≤ 1)
    (B : Fin (nd + 1) → Fin (nd + 1) → ℝ) (W : Fin (nd + 1) → ℝ) : LocallyLipschitz (p.rhs B W) := by
  have hc := pacCp_lip (nd := nd) p hx
  have hy : ∀ k i, LocallyLipschitz fun y : PacY nd m => y.1 k i := by
    intro k i
    have : ContDiff ℝ 1 fun y : PacY nd m => y.1 k i := by fun_prop
    exact this.locallyLipschitz
  have hw : ∀ i, LocallyLipschitz fun y : PacY nd m => y.2 i := by
    intro i
    have : ContDiff ℝ 1 fun y : PacY nd m => y.2 i := by fun_prop
    exact this.locallyLipschitz
  have hJ : ∀ i, LocallyLipschitz fun y : PacY nd m => p.flux y i :=
    fun i => lip_mul (lip_const _) (lip_sub (hw i) (hc _ i))
  have hr : ∀ k i, LocallyLipschitz fun y : PacY nd m => p.rawY B y k i := by
    intro k i
    unfold Pac.rawY
    exact lip_div (lip_add (lip_mul (lip_const _) (lip_sum _ fun l _ => lip_mul (lip_const _) (hc l i)))
      (lip_mul (lip_const _) (lip_sum _ fun l _ => lip_mul (lip_const _) (hy l i)))) _
  refine LocallyLipschitz.prodMk (lip_pi fun k => lip_pi fun i => ?_) (lip_pi fun i => ?_)
  · by_cases h : k = Fin.last nd
    · simp only [if_pos h]
      exact lip_div (lip_neg (lip_add (lip_div (hJ i) _) (lip_sum _ fun l _ => lip_mul (lip_const _) (hr _ i)))) _
    · simp only [if_neg h]
      exact hr k i
  · exact lip_mul (lip_mul (lip_const _) (hJ i)) (lip_const _)

theorem solves_pac {F : ℝ → PacY nd m → PacY nd m} {t0 t1 : ℝ} {y : ℝ → PacY nd m} :
    Spec.Solves pacComp F t0 t1 y ↔ ∀ t ∈ Icc t0 t1, HasDerivWithinAt y (F t (y t)) (Icc t0 t1) t := by
  constructor
  · intro h t ht
    have h1 : HasDerivWithinAt (fun t => (y t).1) (F t (y t)).1 (Icc t0 t1) t :=
      hasDerivWithinAt_pi.2 fun k => hasDerivWithinAt_pi.2 fun i => h t ht (Sum.inl (k, i))
    have h2 : HasDerivWithinAt (fun t => (y t).2) (F t (y t)).2 (Icc t0 t1) t :=
      hasDerivWithinAt_pi.2 fun i => h t ht (Sum.inr i)
    exact h1.prodMk h2
  · intro h t ht a
    have h1 := hasDerivWithinAt_iff_hasFDerivWithinAt.1 (h t ht)
    rcases a with ⟨k, i⟩ | i
    · have h2 : HasDerivWithinAt (fun t => (y t).1) (F t (y t)).1 (Icc t0 t1) t := by
        have := h1.fst.hasDerivWithinAt
        simpa using this
      exact hasDerivWithinAt_pi.1 (hasDerivWithinAt_pi.1 h2 k) i
    · have h2 : HasDerivWithinAt (fun t => (y t).2) (F t (y t)).2 (Icc t0 t1) t := by
        have := h1.snd.hasDerivWithinAt
        simpa using this
      exact hasDerivWithinAt_pi.1 h2 i

/-- C211. Two exact solutions of a powdered carbon contactor that start in one state are the same. -/
theorem c211_pac_unique (p : Pac m) (hx : ∀ i, 0 < (p.comp i).xni ∧ (p.comp i).xni ≤ 1)
    (B : Fin (nd + 1) → Fin (nd + 1) → ℝ) (W : Fin (nd + 1) → ℝ) {t0 t1 : ℝ} {y1 y2 : ℝ → PacY nd m}
    (h1 : Spec.Solves pacComp (fun _ u => p.rhs B W u) t0 t1 y1)
    (h2 : Spec.Solves pacComp (fun _ u => p.rhs B W u) t0 t1 y2) (h0 : y1 t0 = y2 t0) :
    ∀ t ∈ Icc t0 t1, y1 t = y2 t := by
  refine unique_of_lip (G := ℝ) (c := fun _ => 0) (F := fun x => p.rhs B W x.2) continuousOn_const (solves_pac.1 h1)
    (solves_pac.1 h2) h0 (fun t _ => ?_)
  exact ((pac_lip p hx B W).comp (LipschitzWith.prod_snd.locallyLipschitz : LocallyLipschitz
    (Prod.snd : ℝ × PacY nd m → PacY nd m))) (0, y1 t)

/-- C211. From every state a powdered carbon contactor has an exact solution for some time. -/
theorem c211_pac_exists (p : Pac m) (hx : ∀ i, 0 < (p.comp i).xni ∧ (p.comp i).xni ≤ 1)
    (B : Fin (nd + 1) → Fin (nd + 1) → ℝ) (W : Fin (nd + 1) → ℝ) {t0 t1 : ℝ} (h01 : t0 < t1) (u : PacY nd m) :
    ∃ t2, t0 < t2 ∧ t2 ≤ t1 ∧ ∃ y, y t0 = u ∧ Spec.Solves pacComp (fun _ u => p.rhs B W u) t0 t2 y := by
  obtain ⟨d, h1, h2, y, hy0, hy⟩ := exists_of_lip (G := ℝ) (c := fun _ => 0) (F := fun x => p.rhs B W x.2) (x := u) h01
    continuousOn_const (((pac_lip p hx B W).comp (LipschitzWith.prod_snd.locallyLipschitz : LocallyLipschitz
    (Prod.snd : ℝ × PacY nd m → PacY nd m))) (0, u))
  exact ⟨d, h1, h2, y, hy0, solves_pac.2 hy⟩

end pac

/-! ### Granular carbon -/

section gac
variable {n r z : ℕ}

/-- The pore concentration without its case distinctions. -/
theorem cpore_closed {ym xn foul y : Fin n → ℝ} (hym : ∀ j, 0 < ym j) (hxn : ∀ j, 0 < xn j) (i : Fin n) :
    cpore ym xn foul y i = foul i * (max (ym i * y i) 0 / (∑ j, max (ym j * y j) 0) *
      (∑ j, xn i / ym i / xn j * max (ym j * y j) 0) ^ (1 / xn i)) := by
  have hz : ∀ j, (if ym j * y j < 0 then 0 else ym j * y j) = max (ym j * y j) 0 := by
    intro j
    split
    · rw [max_eq_right (by linarith)]
    · rw [max_eq_left (by linarith)]
  unfold cpore
  simp only [hz]
  have hnn : ∀ j, 0 ≤ max (ym j * y j) 0 := fun j => le_max_right _ _
  have hS : 0 ≤ ∑ j, max (ym j * y j) 0 := Finset.sum_nonneg fun j _ => hnn j
  by_cases h0 : ∑ j, max (ym j * y j) 0 = 0
  · have hz0 : ∀ j, max (ym j * y j) 0 = 0 := fun j =>
      (Finset.sum_eq_zero_iff_of_nonneg (fun j _ => hnn j)).1 h0 j (Finset.mem_univ j)
    simp only [hz0, mul_zero, Finset.sum_const_zero, le_refl, true_or, or_true, if_true, zero_div, zero_mul]
  · have hS' : 0 < ∑ j, max (ym j * y j) 0 := lt_of_le_of_ne hS (Ne.symm h0)
    have hT : 0 < ∑ j, 1 / xn j * max (ym j * y j) 0 := by
      obtain ⟨j, -, hj⟩ := Finset.exists_ne_zero_of_sum_ne_zero h0
      refine Finset.sum_pos' (fun j _ => mul_nonneg (one_div_pos.2 (hxn j)).le (hnn j)) ⟨j, Finset.mem_univ j, ?_⟩
      exact mul_pos (one_div_pos.2 (hxn j)) (lt_of_le_of_ne (hnn j) (Ne.symm hj))
    have hq : 0 < xn i / ym i * ∑ j, 1 / xn j * max (ym j * y j) 0 := mul_pos (div_pos (hxn i) (hym i)) hT
    have h3 : ¬ (1 / xn i * (xn i / ym i * ∑ j, 1 / xn j * max (ym j * y j) 0) < -20) := by
      have := mul_pos (one_div_pos.2 (hxn i)) hq
      linarith
    rw [if_neg h0, if_neg (by
      push Not
      exact ⟨hS', hT, not_lt.1 h3⟩), if_neg (not_le.2 hS')]
    congr 3
    rw [Finset.mul_sum]
    exact Finset.sum_congr rfl fun j _ => by ring

/-- Per unit of fouling factor the pore concentration is locally Lipschitz in the loadings. -/
theorem cpore_lip {ym xn : Fin n → ℝ} (hym : ∀ j, 0 < ym j) (hxn : ∀ j, 0 < xn j ∧ xn j ≤ 1) (i : Fin n) :
    LocallyLipschitz fun y : Fin n → ℝ => max (ym i * y i) 0 / (∑ j, max (ym j * y j) 0) *
      (∑ j, xn i / ym i / xn j * max (ym j * y j) 0) ^ (1 / xn i) := by
  intro x
  obtain ⟨K, hK0, hK⟩ := share_lip (c := fun j => xn i / ym i / xn j)
    (fun j => (div_pos (div_pos (hxn i).1 (hym i)) (hxn j).1).le) ((one_le_div (hxn i).1).2 (hxn i).2) i
    (∑ j, ym j * (|x j| + 1))
  have hsum : 0 ≤ ∑ j, ym j := Finset.sum_nonneg fun j _ => (hym j).le
  refine ⟨⟨K * ∑ j, ym j, mul_nonneg hK0 hsum⟩, Metric.ball x 1, Metric.ball_mem_nhds x one_pos, ?_⟩
  have hR : ∀ y ∈ Metric.ball x 1, ∑ j, max (ym j * y j) 0 ≤ ∑ j, ym j * (|x j| + 1) := by
    intro y hy
    refine Finset.sum_le_sum fun j _ => max_le ?_ (mul_nonneg (hym j).le (by positivity))
    refine mul_le_mul_of_nonneg_left ?_ (hym j).le
    have h1 : dist (y j) (x j) ≤ dist y x := dist_le_pi_dist y x j
    rw [Real.dist_eq] at h1
    have h2 : dist y x < 1 := hy
    have := (abs_le.1 h1).2
    have := le_abs_self (x j)
    linarith
  refine LipschitzOnWith.of_dist_le_mul fun y hy w hw => ?_
  rw [Real.dist_eq]
  have h1 := hK (fun j => max (ym j * y j) 0) (fun j => max (ym j * w j) 0) (fun j => le_max_right _ _)
    (fun j => le_max_right _ _) (hR y hy) (hR w hw)
  refine h1.trans ?_
  show K * _ ≤ K * (∑ j, ym j) * dist y w
  rw [mul_assoc]
  refine mul_le_mul_of_nonneg_left ?_ hK0
  rw [Finset.sum_mul]
  refine Finset.sum_le_sum fun j _ => ?_
  refine (abs_max_sub_max_le_abs _ _ 0).trans ?_
  rw [← mul_sub, abs_mul, abs_of_pos (hym j)]
  refine mul_le_mul_of_nonneg_left ?_ (hym j).le
  have := dist_le_pi_dist y w j
  rwa [Real.dist_eq] at this

/-- Influent, fouling factors and tortuosity factors at one time. -/
abbrev GacForcing (n : ℕ) := (Fin n → ℝ) × (Fin n → ℝ) × (Fin n → ℝ)

theorem cporeAt_lip (D : GacDim n r z) (hym : ∀ j, 0 < D.ym j) (hxn : ∀ j, 0 < D.xn j ∧ D.xn j ≤ 1) (i : Fin n)
    (k : Fin (r + 1)) (w : Fin (z + 1)) :
    LocallyLipschitz fun x : GacForcing n × GacState n r z => cporeAt D x.1.2.1 x.2 i k w := by
  have h1 : LocallyLipschitz fun x : GacForcing n × GacState n r z =>
      cpore D.ym D.xn x.1.2.1 (fun j => x.2 j k.castSucc w) i := by
    simp only [cpore_closed hym (fun j => (hxn j).1)]
    refine lip_mul ?_ ?_
    · have : ContDiff ℝ 1 fun x : GacForcing n × GacState n r z => x.1.2.1 i := by fun_prop
      exact this.locallyLipschitz
    · have h2 : ContDiff ℝ 1 fun (x : GacForcing n × GacState n r z) (j : Fin n) => x.2 j k.castSucc w := by fun_prop
      exact (cpore_lip hym hxn i).comp h2.locallyLipschitz
  unfold cporeAt
  simp only
  by_cases hk : k = Fin.last r
  · have e : ∀ x : GacForcing n × GacState n r z,
        (if k = Fin.last r ∧ cpore D.ym D.xn x.1.2.1 (fun j => x.2 j k.castSucc w) i < 0 then 0
          else cpore D.ym D.xn x.1.2.1 (fun j => x.2 j k.castSucc w) i) =
        max (cpore D.ym D.xn x.1.2.1 (fun j => x.2 j k.castSucc w) i) 0 := by
      intro x
      by_cases h : cpore D.ym D.xn x.1.2.1 (fun j => x.2 j k.castSucc w) i < 0
      · rw [if_pos ⟨hk, h⟩, max_eq_right h.le]
      · rw [if_neg (fun h' => h h'.2), max_eq_left (not_lt.1 h)]
    simp only [e]
    exact h1.max_const 0
  · simp only [hk, false_and, if_false]
    exact h1

/-- The rates of a granular carbon column are locally Lipschitz in its inputs and its state. -/
theorem gac_lip (D : GacDim n r z) (hym : ∀ j, 0 < D.ym j) (hxn : ∀ j, 0 < D.xn j ∧ D.xn j ≤ 1) :
    LocallyLipschitz fun x : GacForcing n × GacState n r z => gacRhs D x.1.1 x.1.2.1 x.1.2.2 x.2 := by
  have hc := cporeAt_lip D hym hxn
  have hy : ∀ i a w, LocallyLipschitz fun x : GacForcing n × GacState n r z => x.2 i a w := by
    intro i a w
    have : ContDiff ℝ 1 fun x : GacForcing n × GacState n r z => x.2 i a w := by fun_prop
    exact this.locallyLipschitz
  have hin : ∀ i, LocallyLipschitz fun x : GacForcing n × GacState n r z => x.1.1 i := by
    intro i
    have : ContDiff ℝ 1 fun x : GacForcing n × GacState n r z => x.1.1 i := by fun_prop
    exact this.locallyLipschitz
  have hf : ∀ i, LocallyLipschitz fun x : GacForcing n × GacState n r z => x.1.2.2 i := by
    intro i
    have : ContDiff ℝ 1 fun x : GacForcing n × GacState n r z => x.1.2.2 i := by fun_prop
    exact this.locallyLipschitz
  have hBB : ∀ i k w, LocallyLipschitz fun x : GacForcing n × GacState n r z => gacBB D x.1.2.1 x.1.2.2 x.2 i k w := by
    intro i k w
    unfold gacBB
    exact lip_add (lip_mul (lip_sum _ fun l _ => lip_mul (lip_const _) (hc i l w)) (hf i))
      (lip_sum _ fun l _ => lip_mul (lip_const _) (hy i _ w))
  have hW : ∀ i w, LocallyLipschitz fun x : GacForcing n × GacState n r z => gacWW D x.1.2.1 x.1.2.2 x.2 i w :=
    fun i w => lip_sum _ fun k _ => lip_mul (lip_const _) (hBB i _ w)
  have hcb : ∀ i w, LocallyLipschitz fun x : GacForcing n × GacState n r z => gacCbs D x.1.2.1 x.2 i w := by
    intro i w
    unfold gacCbs
    by_cases h : w = 0
    · simp only [if_pos h]; exact lip_const 0
    · simp only [if_neg h]
      exact lip_mul (lip_sub (hy i _ w) (hc i _ w)) (lip_const _)
  refine lip_pi fun i => lip_pi fun a => lip_pi fun w => ?_
  unfold gacRhs
  induction a using Fin.lastCases with
  | last =>
    simp only [Fin.lastCases_last]
    unfold gacLiq
    by_cases h : w = 0
    · simp only [if_pos h]; exact lip_const 0
    · simp only [if_neg h]
      exact lip_sub (lip_mul (lip_const _) (lip_add (lip_mul (lip_const _) (hin i))
        (lip_sum _ fun w' _ => lip_mul (lip_const _) (hy i _ _)))) (lip_mul (lip_const _) (hcb i w))
  | cast k =>
    simp only [Fin.lastCases_castSucc]
    unfold gacBead
    by_cases h : k = Fin.last r
    · by_cases h0 : w = 0
      · simp only [if_pos h, if_pos h0]
        exact lip_div (lip_sub (lip_mul (lip_sub (hin i) (hc i _ 0)) (lip_const _)) (hW i 0)) _
      · simp only [if_pos h, if_neg h0]
        exact lip_div (lip_sub (lip_mul (hcb i w) (lip_const _)) (hW i w)) _
    · simp only [if_neg h]
      exact hBB i k w

theorem solves_gac {F : ℝ → GacState n r z → GacState n r z} {t0 t1 : ℝ} {y : ℝ → GacState n r z} :
    Spec.Solves gacComp F t0 t1 y ↔ ∀ t ∈ Icc t0 t1, HasDerivWithinAt y (F t (y t)) (Icc t0 t1) t := by
  constructor
  · intro h t ht
    exact hasDerivWithinAt_pi.2 fun a => hasDerivWithinAt_pi.2 fun i => hasDerivWithinAt_pi.2 fun w => h t ht (a, i, w)
  · intro h t ht a
    exact hasDerivWithinAt_pi.1 (hasDerivWithinAt_pi.1 (hasDerivWithinAt_pi.1 (h t ht) a.1) a.2.1) a.2.2

/-- C211. Two exact solutions of a carbon column under the same continuous inputs that start in one state are the same. -/
theorem c211_unique (D : GacDim n r z) (hym : ∀ j, 0 < D.ym j) (hxn : ∀ j, 0 < D.xn j ∧ D.xn j ≤ 1)
    {cinfl foul fac : ℝ → Fin n → ℝ} {t0 t1 : ℝ} (h1 : ContinuousOn cinfl (Icc t0 t1))
    (h2 : ContinuousOn foul (Icc t0 t1)) (h3 : ContinuousOn fac (Icc t0 t1)) {y1 y2 : ℝ → GacState n r z}
    (hy1 : Spec.Solves gacComp (fun t u => gacRhs D (cinfl t) (foul t) (fac t) u) t0 t1 y1)
    (hy2 : Spec.Solves gacComp (fun t u => gacRhs D (cinfl t) (foul t) (fac t) u) t0 t1 y2) (h0 : y1 t0 = y2 t0) :
    ∀ t ∈ Icc t0 t1, y1 t = y2 t := by
  have hL := gac_lip D hym hxn
  have e1 := solves_gac.1 hy1
  have e2 := solves_gac.1 hy2
  generalize hF : (fun x : GacForcing n × GacState n r z => gacRhs D x.1.1 x.1.2.1 x.1.2.2 x.2) = F at hL
  have hF' : ∀ a b c u, gacRhs D a b c u = F ((a, b, c), u) := fun a b c u => by rw [← hF]
  simp only [hF'] at e1 e2
  exact unique_of_lip (c := fun t => (cinfl t, foul t, fac t)) (F := F) (h1.prodMk (h2.prodMk h3)) e1 e2 h0 (fun _ _ => hL _)

/-- C211. From every state a carbon column has an exact solution for some time. -/
theorem c211_exists (D : GacDim n r z) (hym : ∀ j, 0 < D.ym j) (hxn : ∀ j, 0 < D.xn j ∧ D.xn j ≤ 1)
    {cinfl foul fac : ℝ → Fin n → ℝ} {t0 t1 : ℝ} (h01 : t0 < t1) (h1 : ContinuousOn cinfl (Icc t0 t1))
    (h2 : ContinuousOn foul (Icc t0 t1)) (h3 : ContinuousOn fac (Icc t0 t1)) (u : GacState n r z) :
    ∃ t2, t0 < t2 ∧ t2 ≤ t1 ∧ ∃ y, y t0 = u ∧
      Spec.Solves gacComp (fun t u => gacRhs D (cinfl t) (foul t) (fac t) u) t0 t2 y := by
  have hL := gac_lip D hym hxn
  simp only [solves_gac]
  generalize hF : (fun x : GacForcing n × GacState n r z => gacRhs D x.1.1 x.1.2.1 x.1.2.2 x.2) = F at hL
  have hF' : ∀ a b c u, gacRhs D a b c u = F ((a, b, c), u) := fun a b c u => by rw [← hF]
  simp only [hF']
  exact exists_of_lip (c := fun t => (cinfl t, foul t, fac t)) (F := F) (x := u) h01 (h1.prodMk (h2.prodMk h3)) (hL _)

/-- Values tabulated at whole minutes, read in between as the code does, are continuous. -/
theorem lerp_continuous (A : ℕ → ℝ) {c : ℝ} (hc : 0 < c) :
    ContinuousOn (fun t : ℝ => lerp (A ⌊t / c⌋₊) (A (⌊t / c⌋₊ + 1)) (t / c - ⌊t / c⌋₊)) (Ici 0) := by
  have key : ∀ N : ℕ, ∀ x : ℝ, 0 ≤ x → x < N → lerp (A ⌊x⌋₊) (A (⌊x⌋₊ + 1)) (x - ⌊x⌋₊) =
      A 0 + ∑ k ∈ Finset.range N, (A (k + 1) - A k) * min 1 (max 0 (x - k)) := by
    intro N x hx hN
    have hm : ⌊x⌋₊ < N := (Nat.floor_lt hx).2 hN
    have h1 := Nat.floor_le hx
    have h2 := Nat.lt_floor_add_one x
    obtain ⟨M, rfl⟩ : ∃ M, N = ⌊x⌋₊ + 1 + M := ⟨N - (⌊x⌋₊ + 1), by omega⟩
    rw [Finset.sum_range_add, Finset.sum_range_succ]
    have e1 : ∑ k ∈ Finset.range ⌊x⌋₊, (A (k + 1) - A k) * min 1 (max 0 (x - k)) = A ⌊x⌋₊ - A 0 := by
      rw [← Finset.sum_range_sub]
      refine Finset.sum_congr rfl fun k hk => ?_
      have hk' : ((k + 1 : ℕ) : ℝ) ≤ ⌊x⌋₊ := by exact_mod_cast Finset.mem_range.1 hk
      push_cast at hk'
      rw [min_eq_left ((le_max_right _ _).trans' (by linarith)), mul_one]
    have e2 : ∑ k ∈ Finset.range M, (A (⌊x⌋₊ + 1 + k + 1) - A (⌊x⌋₊ + 1 + k)) *
        min 1 (max 0 (x - (⌊x⌋₊ + 1 + k : ℕ))) = 0 := by
      refine Finset.sum_eq_zero fun k _ => ?_
      have : x - (⌊x⌋₊ + 1 + k : ℕ) ≤ 0 := by
        push_cast
        have : (0:ℝ) ≤ k := Nat.cast_nonneg k
        linarith
      rw [max_eq_left this, min_eq_right zero_le_one, mul_zero]
    rw [e1, e2, max_eq_right (by linarith), min_eq_right (by linarith)]
    unfold lerp
    ring
  intro t ht
  obtain ⟨N, hN⟩ := exists_nat_gt (t / c + 1)
  have hcont : ContinuousWithinAt (fun t : ℝ => A 0 + ∑ k ∈ Finset.range N, (A (k + 1) - A k) *
      min 1 (max 0 (t / c - k))) (Ici 0) t := by
    refine Continuous.continuousWithinAt ?_
    fun_prop
  refine hcont.congr_of_eventuallyEq ?_ ?_
  · have : ∀ᶠ s in 𝓝[Ici 0] t, s / c < N := by
      have h1 : ContinuousAt (fun s : ℝ => s / c) t := by fun_prop
      exact nhdsWithin_le_nhds (h1.eventually (gt_mem_nhds (by linarith)))
    filter_upwards [this, self_mem_nhdsWithin] with s hs hs0
    exact key N (s / c) (div_nonneg hs0 hc.le) hs
  · exact key N (t / c) (div_nonneg ht hc.le) (by linarith)

/-- C211. So the inputs as the code reads them, within their tables, leave one run: whatever is tabulated for influent,
fouling and tortuosity. -/
theorem c211_sampled (D : GacDim n r z) (hym : ∀ j, 0 < D.ym j) (hxn : ∀ j, 0 < D.xn j ∧ D.xn j ≤ 1)
    {len : ℕ} (Ac Af At : Fin n → ℕ → ℝ) {tconv t1 : ℝ} (htc : 0 < tconv) (h01 : 0 < t1)
    (hlen : ⌊t1 / tconv⌋₊ + 1 < len) (u : GacState n r z) :
    ∃ cinfl foul fac : ℝ → Fin n → ℝ,
      (∀ t ∈ Icc 0 t1, ∀ i, gacSample len (Ac i) tconv t = .ok (cinfl t i) ∧
        gacSample len (Af i) tconv t = .ok (foul t i) ∧ gacSample len (At i) tconv t = .ok (fac t i)) ∧
      (∃ t2, 0 < t2 ∧ t2 ≤ t1 ∧ ∃ y, y 0 = u ∧
        Spec.Solves gacComp (fun t u => gacRhs D (cinfl t) (foul t) (fac t) u) 0 t2 y) ∧
      ∀ t2 ≤ t1, ∀ y1 y2, Spec.Solves gacComp (fun t u => gacRhs D (cinfl t) (foul t) (fac t) u) 0 t2 y1 →
        Spec.Solves gacComp (fun t u => gacRhs D (cinfl t) (foul t) (fac t) u) 0 t2 y2 → y1 0 = u → y2 0 = u →
        ∀ t ∈ Icc 0 t2, y1 t = y2 t := by
  let g : (Fin n → ℕ → ℝ) → ℝ → Fin n → ℝ :=
    fun A t i => lerp (A i ⌊t / tconv⌋₊) (A i (⌊t / tconv⌋₊ + 1)) (t / tconv - ⌊t / tconv⌋₊)
  have hs : ∀ A i, ∀ t ∈ Icc 0 t1, gacSample len (A i) tconv t = .ok (g A t i) := by
    intro A i t ht
    have hle : ⌊t / tconv⌋₊ ≤ ⌊t1 / tconv⌋₊ := Nat.floor_le_floor (div_le_div_of_nonneg_right ht.2 htc.le)
    unfold gacSample
    simp only
    rw [if_pos (by omega)]
  have hg : ∀ A t2, ContinuousOn (g A) (Icc 0 t2) := fun A t2 =>
    continuousOn_pi.2 fun i => (lerp_continuous (A i) htc).mono Icc_subset_Ici_self
  refine ⟨g Ac, g Af, g At, fun t ht i => ⟨hs _ _ t ht, hs _ _ t ht, hs _ _ t ht⟩,
    c211_exists D hym hxn h01 (hg _ _) (hg _ _) (hg _ _) u, fun t2 _ y1 y2 h1 h2 e1 e2 => ?_⟩
  exact c211_unique D hym hxn (hg _ _) (hg _ _) (hg _ _) h1 h2 (e1.trans e2.symm)

/-- C211. For a column as the code sets it up, it is enough that every compound has a positive Freundlich coefficient and
molar weight and an exponent of at most one. -/
theorem c211_column (G : GacCol) {cs : Fin n → GacComp} (hcs : ∀ i, (cs i).Ok) (hle : ∀ i, (cs i).xn ≤ 1)
    (wr : Fin (r + 1) → ℝ) (br : Fin (r + 1) → Fin (r + 1) → ℝ) (az : Fin (z + 1) → Fin (z + 1) → ℝ)
    {len : ℕ} (Ac Af At : Fin n → ℕ → ℝ) {t1 : ℝ} (htc : 0 < tconvOf G cs) (h01 : 0 < t1)
    (hlen : ⌊t1 / tconvOf G cs⌋₊ + 1 < len) (u : GacState n r z) :
    ∃ cinfl foul fac : ℝ → Fin n → ℝ,
      (∀ t ∈ Icc 0 t1, ∀ i, gacSample len (Ac i) (tconvOf G cs) t = .ok (cinfl t i) ∧
        gacSample len (Af i) (tconvOf G cs) t = .ok (foul t i) ∧
        gacSample len (At i) (tconvOf G cs) t = .ok (fac t i)) ∧
      (∃ t2, 0 < t2 ∧ t2 ≤ t1 ∧ ∃ y, y 0 = u ∧ Spec.Solves gacComp
        (fun t u => gacRhs (gacDim G cs wr br az) (cinfl t) (foul t) (fac t) u) 0 t2 y) ∧
      ∀ t2 ≤ t1, ∀ y1 y2,
        Spec.Solves gacComp (fun t u => gacRhs (gacDim G cs wr br az) (cinfl t) (foul t) (fac t) u) 0 t2 y1 →
        Spec.Solves gacComp (fun t u => gacRhs (gacDim G cs wr br az) (cinfl t) (foul t) (fac t) u) 0 t2 y2 →
        y1 0 = u → y2 0 = u → ∀ t ∈ Icc 0 t2, y1 t = y2 t :=
  c211_sampled (gacDim G cs wr br az) (ym_pos hcs) (fun j => ⟨(hcs j).2.1, hle j⟩) Ac Af At htc h01 hlen u

end gac

example : ∀ i, 0 < (exPac.comp i).xni ∧ (exPac.comp i).xni ≤ 1 := by
  intro i
  show (0:ℝ) < 1 / 2 ∧ (1 / 2 : ℝ) ≤ 1
  norm_num

/-- The two example compounds qualify. -/
example : (∀ i, ((![⟨100, 1 / 2, 131, 90, 3, 0, 0, 0⟩, ⟨20, 3 / 4, 414, 200, 0, 0, 0, 0⟩] :
    Fin 2 → GacComp) i).Ok) ∧ ∀ i, ((![⟨100, 1 / 2, 131, 90, 3, 0, 0, 0⟩, ⟨20, 3 / 4, 414, 200, 0, 0, 0, 0⟩] :
    Fin 2 → GacComp) i).xn ≤ 1 := by
  constructor <;> intro i <;> fin_cases i <;> (try unfold GacComp.Ok) <;> norm_num

end WTM
