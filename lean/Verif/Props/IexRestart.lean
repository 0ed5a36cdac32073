import Mathlib.Tactic
import Verif.Props.IexColumn

/-! C136: continuing an ion-exchange run from a stored state. -/
set_option autoImplicit false
namespace WTM

variable {r p z : ℕ}

theorem setInlet_setInlet (u : ColState r p z) (c d : Fin (p + 1) → ℝ) : setInlet (setInlet u c) d = setInlet u d := by
  funext a i w
  unfold setInlet
  by_cases h : a = 0 ∧ w = 0
  · rw [if_pos h, if_pos h]
  · rw [if_neg h, if_neg h, if_neg h]

/-- The inlet entries of a state are not read by the rates. -/
theorem rhs_setInlet (m : ColModel) (P : ColParams r p z) (tH : ℝ) (cin c : Fin (p + 1) → ℝ) (u : ColState r p z) :
    m.rhs P tH cin (setInlet u c) = m.rhs P tH cin u := by
  cases m
  · simp only [ColModel.rhs, hsdmixRhs, setInlet_setInlet]
  · simp only [ColModel.rhs, psdmixRhs, setInlet_setInlet]

/-- The inlet entries of a state do not move. -/
theorem rhs_inlet (m : ColModel) (P : ColParams r p z) (tH : ℝ) (cin : Fin (p + 1) → ℝ) (u : ColState r p z)
    (i : Fin (p + 1)) : m.rhs P tH cin u 0 i 0 = 0 := by
  cases m <;> simp [ColModel.rhs, hsdmixRhs, psdmixRhs, assemble]

/-- C136. Let `Y` be a run with influent `cin` (a function of physical time) and time scale `tH`, stopped at physical
time `s`. The run started from the state stored then (`u_init`), with the rest of the influent and whatever time scale
`tH'` that influent gives, is the rest of the first run: the same states at the same physical times, the inlet entries
(which the rates never read) aside. -/
theorem c136_restart (m : ColModel) (P : ColParams r p z) {tH tH' : ℝ} (h : 0 < tH) (h' : 0 < tH')
    (cin : ℝ → Fin (p + 1) → ℝ) {T1 s : ℝ} (hs : 0 ≤ s) {Y : ℝ → ColState r p z}
    (hY : Spec.Solves colComp (fun T u => m.rhs P tH (cin (T * tH)) u) 0 T1 Y) :
    ∃ Z : ℝ → ColState r p z, Z 0 = colInit P.Q (cin s) (some (Y (s / tH))) ∧
      Spec.Solves colComp (fun T u => m.rhs P tH' (cin (s + T * tH')) u) 0 ((T1 * tH - s) / tH') Z ∧
      ∀ t a i w, a ≠ 0 ∨ w ≠ 0 → Z (t / tH') a i w = Y ((s + t) / tH) a i w := by
  refine ⟨fun T => setInlet (Y ((s + T * tH') / tH)) (cin s), ?_, ?_, ?_⟩
  · funext a i w
    simp only [zero_mul, add_zero, setInlet, colInit]
  · intro T hT a
    have hT2 : T * tH' ≤ T1 * tH - s := (le_div_iff₀ h').1 hT.2
    have hin : (s + T * tH') / tH ∈ Set.Icc 0 T1 :=
      ⟨div_nonneg (add_nonneg hs (mul_nonneg hT.1 h'.le)) h.le, (div_le_iff₀ h).2 (by linarith)⟩
    obtain ⟨a, i, w⟩ := a
    unfold colComp
    simp only
    rw [rhs_setInlet]
    by_cases haw : a = 0 ∧ w = 0
    · obtain ⟨rfl, rfl⟩ := haw
      rw [rhs_inlet]
      have : (fun T => setInlet (Y ((s + T * tH') / tH)) (cin s) 0 i 0) = fun _ => cin s i := by
        funext T; simp [setInlet]
      rw [this]
      exact hasDerivWithinAt_const _ _ _
    · have e : (fun T => setInlet (Y ((s + T * tH') / tH)) (cin s) a i w) = fun T => Y ((s + T * tH') / tH) a i w := by
        funext T; simp only [setInlet, if_neg haw]
      rw [e]
      have h1 := hY _ hin (a, i, w)
      have h2 : HasDerivWithinAt (fun T : ℝ => (s + T * tH') / tH) (tH' / tH) (Set.Icc 0 ((T1 * tH - s) / tH')) T := by
        have := (((hasDerivWithinAt_id T (Set.Icc 0 ((T1 * tH - s) / tH'))).mul_const tH').const_add s).div_const tH
        simpa using this
      have hmaps : Set.MapsTo (fun T : ℝ => (s + T * tH') / tH) (Set.Icc 0 ((T1 * tH - s) / tH')) (Set.Icc 0 T1) := by
        intro T hT
        have hT2 : T * tH' ≤ T1 * tH - s := (le_div_iff₀ h').1 hT.2
        exact ⟨div_nonneg (add_nonneg hs (mul_nonneg hT.1 h'.le)) h.le, (div_le_iff₀ h).2 (by linarith)⟩
      have h3 := h1.scomp T h2 hmaps
      unfold colComp at h3
      simp only [div_mul_cancel₀ _ h.ne', smul_eq_mul] at h3
      have e2 : tH' / tH * m.rhs P tH (cin (s + T * tH')) (Y ((s + T * tH') / tH)) a i w =
          m.rhs P tH' (cin (s + T * tH')) (Y ((s + T * tH') / tH)) a i w := by
        rw [c82_rates, c82_rates m P tH']
        field_simp
      rw [e2] at h3
      exact h3
  · intro t a i w haw
    have : ¬ (a = 0 ∧ w = 0) := by tauto
    simp only [setInlet, if_neg this, div_mul_cancel₀ _ h'.ne']

/-- A column with one ion that fills at a constant rate: a run that meets the hypotheses and moves. -/
example (m : ColModel) : Spec.Solves colComp (fun T u => m.rhs (r := 0) (p := 0) (z := 1)
      ⟨1, 1, 1, 1, 5, 0, ![1], ![1], ![1], ![1], ![1], ![![-1, 1], ![-1, 0]], 0, ![1]⟩ 1 ((fun _ _ => 1) (T * 1)) u) 0 3
    (fun T a _ w => if a = 0 then (if w = 0 then 1 else T) else 5) := by
  intro T hT a
  obtain ⟨a, i, w⟩ := a
  unfold colComp
  simp only
  cases m <;> fin_cases a <;> fin_cases i <;> fin_cases w <;>
    simp [ColModel.rhs, hsdmixRhs, psdmixRhs, assemble, liqRate, setInlet, fluxJ, implicitRef, Fin.sum_univ_two,
      hsdmBead, psdmBead, hasDerivWithinAt_const] <;>
    first | exact hasDerivWithinAt_id _ _ | exact hasDerivWithinAt_const _ _ _

theorem interpVal_shift (s : ℝ) : ∀ (l : List (ℝ × ℝ)) (t : ℝ),
    interpVal (l.map fun x => (x.1 - s, x.2)) t = interpVal l (s + t)
  | [], t => by simp [interpVal]
  | [a], t => by simp [interpVal]
  | a :: b :: l, t => by
    have ih := interpVal_shift s (b :: l) t
    simp only [List.map_cons] at ih ⊢
    rw [interpVal.eq_1, interpVal.eq_1, ih]
    dsimp only
    by_cases h1 : t < a.1 - s
    · rw [if_pos h1, if_pos (show s + t < a.1 by linarith)]
    · rw [if_neg h1, if_neg (show ¬ s + t < a.1 by linarith)]
      by_cases h2 : t ≤ b.1 - s
      · rw [if_pos h2, if_pos (show s + t ≤ b.1 by linarith)]
        congr 1; ring_nf
      · rw [if_neg h2, if_neg (show ¬ s + t ≤ b.1 by linarith)]

theorem interpVal_drop : ∀ (pre : List (ℝ × ℝ)) (b : ℝ × ℝ) (post : List (ℝ × ℝ)) (t : ℝ),
    List.Pairwise (fun x y => x.1 < y.1) (pre ++ b :: post) → b.1 < t →
      interpVal (pre ++ b :: post) t = interpVal (b :: post) t
  | [], b, post, t, _, _ => rfl
  | [a], b, post, t, hp, ht => by
    have hab : a.1 < b.1 := (List.pairwise_cons.1 hp).1 b (by simp)
    show interpVal (a :: b :: post) t = _
    rw [interpVal, if_neg (by linarith), if_neg (by linarith)]
  | a :: a' :: pre, b, post, t, hp, ht => by
    have hp' := (List.pairwise_cons.1 hp)
    have hab : a.1 < b.1 := hp'.1 b (by simp)
    have hab' : a'.1 < b.1 := (List.pairwise_cons.1 hp'.2).1 b (by simp)
    have ih := interpVal_drop (a' :: pre) b post t hp'.2 ht
    show interpVal (a :: a' :: (pre ++ b :: post)) t = _
    rw [interpVal, if_neg (by linarith), if_neg (by linarith)]
    exact ih

/-- C136: what a restart must be given. The rest of an influent table, from a tabulated time on and with that time as
zero, gives the rest of the influent. -/
theorem c136_table {n : ℕ} (pre : List (ℝ × (Fin n → ℝ))) (b : ℝ × (Fin n → ℝ)) (post : List (ℝ × (Fin n → ℝ)))
    {toT : ℝ} (hm : 0 < toT) (hsort : List.Pairwise (fun x y => x.1 < y.1) (pre ++ b :: post)) {t : ℝ}
    (ht : 0 < t) (i : Fin n) :
    getCin ((b :: post).map fun x => (x.1 - b.1, x.2)) toT t i = getCin (pre ++ b :: post) toT (b.1 * toT + t) i := by
  unfold getCin
  have e : ((b :: post).map fun x => (x.1 - b.1, x.2)).map (fun r => (r.1 * toT, r.2 i)) =
      ((b :: post).map fun r => (r.1 * toT, r.2 i)).map fun x => (x.1 - b.1 * toT, x.2) := by
    rw [List.map_map, List.map_map]
    refine List.map_congr_left fun x _ => ?_
    simp only [Function.comp_apply, Prod.mk.injEq, and_true]
    ring
  rw [e, interpVal_shift, List.map_append, List.map_cons, interpVal_drop]
  · have := List.pairwise_map (f := fun r : ℝ × (Fin n → ℝ) => (r.1 * toT, r.2 i)) (l := pre ++ b :: post)
      (R := fun x y => x.1 < y.1)
    rw [List.map_append, List.map_cons] at this
    rw [this]
    exact hsort.imp fun h => mul_lt_mul_of_pos_right h hm
  · show b.1 * toT < _
    linarith

/-- A three-row table restarted at its second row. -/
example : List.Pairwise (fun x y => x.1 < y.1)
    ([((0 : ℝ), fun _ : Fin 1 => (1 : ℝ))] ++ (2, fun _ => 3) :: [(5, fun _ => 2)]) := by
  simp only [List.cons_append, List.nil_append, List.pairwise_cons, List.mem_cons, List.not_mem_nil, or_false]
  refine ⟨?_, ?_, ?_⟩
  · rintro y (rfl | rfl) <;> norm_num
  · rintro y rfl; norm_num
  · simp

end WTM
