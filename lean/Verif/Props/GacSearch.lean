import Verif.Props.GacRunAll

/-! Properties C225, C226 and C227: the points the smart search tries, how good its result is, and the
settings the fits leave behind. -/
set_option autoImplicit false
namespace WTM

/-! ### Specification -/

/-- Error at position `i` of the factors and `j` of the `1/n` values. At the start the factor and `1/n` are
used before rounding. -/
noncomputable def Spec.gridErr (S : Sim) (o : GacObj) (c : String) (f : ℝ → ℝ) (bkf : ℝ) (ks xs : List ℝ)
    (i0 j0 i j : ℕ) : ℝ :=
  if i = i0 ∧ j = j0 then Spec.fitError S o c (f 0.45 * bkf) 0.45
  else Spec.fitError S o c (f (xs.getD j 0) * ks.getD i 0) (xs.getD j 0)

/-- A trial at a `1/n` of the grid with the capacity there times a factor of the grid, or at the start. -/
def Spec.GridTrial (f : ℝ → ℝ) (bkf : ℝ) (ks xs : List ℝ) (K x : ℝ) : Prop :=
  (K = f 0.45 * bkf ∧ x = 0.45) ∨ ∃ k ∈ ks, x ∈ xs ∧ K = f x * k

/-- Everything a value at `(i, j)` is compared with: its neighbours. -/
def Spec.AllNbrs (nk nx i j : ℕ) (P : ℕ → ℕ → Prop) : Prop :=
  (i + 1 < nk → P (i + 1) j) ∧ (1 ≤ i → P (i - 1) j) ∧ (j + 1 < nx → P i (j + 1)) ∧ (1 ≤ j → P i (j - 1))

/-! ### The invariant -/

structure OnGrid (S : Sim) (c : String) (o0 : GacObj) (f : ℝ → ℝ) (bkf : ℝ) (ks xs : List ℝ) (i0 j0 : ℕ)
    (s : Srch) : Prop where
  good : Good S c o0 ks.length xs.length s
  best : Best s
  val : ∀ a b v, s.store a b = some v → 0 ≤ a ∧ 0 ≤ b ∧ v = Spec.gridErr S o0 c f bkf ks xs i0 j0 a.toNat b.toNat
  start : s.store i0 j0 ≠ none
  tr : ∀ t ∈ s.trials, Spec.GridTrial f bkf ks xs t.1 t.2.1

theorem gridAt_mem {g : List ℝ} {i : ℤ} (h : i.toNat < g.length) : gridAt g i ∈ g := by
  unfold gridAt
  rw [List.getD_eq_getElem?_getD, List.getElem?_eq_getElem h]
  exact List.getElem_mem h

section
variable {S : Sim} {c : String} {o0 : GacObj} {f : ℝ → ℝ} {bkf : ℝ} {ks xs : List ℝ} {i0 j0 : ℕ}

theorem OnGrid.known {s : Srch} (h : OnGrid S c o0 f bkf ks xs i0 j0 s) {a b : ℤ}
    (hab : s.store a b ≠ none) : s.bestSsq ≤ Spec.gridErr S o0 c f bkf ks xs i0 j0 a.toNat b.toNat := by
  obtain ⟨v, hv⟩ := Option.ne_none_iff_exists'.1 hab
  obtain ⟨t, ht, e⟩ := h.good.cache a b v hv
  rw [← (h.val a b v hv).2.2, ← e]
  exact h.best.2 t ht

theorem OnGrid.baseK {s : Srch} (h : OnGrid S c o0 f bkf ks xs i0 j0 s) (hf : o0.kByXn c = some f) (x : ℝ) :
    baseK c x s = f x := by
  obtain ⟨⟨-, -, -, -, -, -, -, hk⟩, -⟩ := h.good.frame
  unfold WTM.baseK
  rw [hk, hf]

/-- A look at a position of the grid. -/
theorem OnGrid.look {s : Srch} (h : OnGrid S c o0 f bkf ks xs i0 j0 s)
    (hr : Spec.Ready o0) (hl : o0.kInputList = false) (ho : o0.optimize = false) {ki xi : ℤ}
    (hk0 : 0 ≤ ki) (hk : ki < ks.length) (hx0 : 0 ≤ xi) (hx : xi < xs.length) :
    OnGrid S c o0 f bkf ks xs i0 j0 (probe S c (f (gridAt xs xi)) (gridAt ks ki) (gridAt xs xi) ki xi s).2 ∧
    (probe S c (f (gridAt xs xi)) (gridAt ks ki) (gridAt xs xi) ki xi s).1 =
      Spec.gridErr S o0 c f bkf ks xs i0 j0 ki.toNat xi.toNat ∧
    (∀ a b, s.store a b ≠ none →
      (probe S c (f (gridAt xs xi)) (gridAt ks ki) (gridAt xs xi) ki xi s).2.store a b ≠ none) ∧
    (probe S c (f (gridAt xs xi)) (gridAt ks ki) (gridAt xs xi) ki xi s).2.store ki xi ≠ none := by
  obtain ⟨g, b⟩ := probe_good hr hl ho h.good h.best (f (gridAt xs xi)) (gridAt ks ki) (gridAt xs xi)
    hk0 hk hx0 hx
  have hfr := Frame.set h.good.frame (f (gridAt xs xi) * gridAt ks ki) (gridAt xs xi)
  have hkd : ({ s.obj with core := { s.obj.core with
      kData := s.obj.core.kData.set c (f (gridAt xs xi) * gridAt ks ki) (gridAt xs xi) } } :
      GacObj).core.kData = o0.core.kData.set c (f (gridAt xs xi) * gridAt ks ki) (gridAt xs xi) := by
    obtain ⟨-, -, -, -, -, k, x, h6⟩ := h.good.frame
    show s.obj.core.kData.set c _ _ = _
    rw [h6, KTab.set_set]
  have te := trial_error (S := S) hfr hkd hl ho
  have hst : (probe S c (f (gridAt xs xi)) (gridAt ks ki) (gridAt xs xi) ki xi s).2.store =
      (getSsq S c (f (gridAt xs xi)) (gridAt ks ki) (gridAt xs xi) ki xi s).2.store := by
    unfold probe; simp only; split <;> rfl
  have htr : (probe S c (f (gridAt xs xi)) (gridAt ks ki) (gridAt xs xi) ki xi s).2.trials =
      (getSsq S c (f (gridAt xs xi)) (gridAt ks ki) (gridAt xs xi) ki xi s).2.trials := by
    unfold probe; simp only; split <;> rfl
  have h1 : (probe S c (f (gridAt xs xi)) (gridAt ks ki) (gridAt xs xi) ki xi s).1 =
      (getSsq S c (f (gridAt xs xi)) (gridAt ks ki) (gridAt xs xi) ki xi s).1 := rfl
  rw [h1, hst]
  cases hs : s.store ki xi with
  | some v =>
    have e : (getSsq S c (f (gridAt xs xi)) (gridAt ks ki) (gridAt xs xi) ki xi s).2.store = s.store := by
      unfold getSsq; simp only [hs]
    have e2 : (getSsq S c (f (gridAt xs xi)) (gridAt ks ki) (gridAt xs xi) ki xi s).2.trials = s.trials := by
      unfold getSsq; simp only [hs]
    have e1 : (getSsq S c (f (gridAt xs xi)) (gridAt ks ki) (gridAt xs xi) ki xi s).1 = v := by
      unfold getSsq; simp only [hs]
    rw [e, e1]
    refine ⟨⟨g, b, by rw [hst, e]; exact h.val, by rw [hst, e]; exact h.start, by rw [htr, e2]; exact h.tr⟩,
      (h.val ki xi v hs).2.2, fun _ _ hab => hab, by rw [hs]; exact Option.some_ne_none v⟩
  | none =>
    have hne : ¬ (ki.toNat = i0 ∧ xi.toNat = j0) := by
      rintro ⟨r1, r2⟩
      have q1 : ki = i0 := by omega
      have q2 : xi = j0 := by omega
      rw [q1, q2] at hs
      exact h.start hs
    have hE : Spec.gridErr S o0 c f bkf ks xs i0 j0 ki.toNat xi.toNat =
        Spec.fitError S o0 c (f (gridAt xs xi) * gridAt ks ki) (gridAt xs xi) := by
      unfold Spec.gridErr
      rw [if_neg hne]
      rfl
    have e1 : (getSsq S c (f (gridAt xs xi)) (gridAt ks ki) (gridAt xs xi) ki xi s).1 =
        Spec.gridErr S o0 c f bkf ks xs i0 j0 ki.toNat xi.toNat := by
      rw [hE, ← te]
      unfold getSsq; simp only [hs]
    have e : (getSsq S c (f (gridAt xs xi)) (gridAt ks ki) (gridAt xs xi) ki xi s).2.store =
        fun a b => if a = ki ∧ b = xi then
          some (Spec.gridErr S o0 c f bkf ks xs i0 j0 ki.toNat xi.toNat) else s.store a b := by
      rw [hE, ← te]
      unfold getSsq; simp only [hs]
    have e2 : (getSsq S c (f (gridAt xs xi)) (gridAt ks ki) (gridAt xs xi) ki xi s).2.trials =
        (f (gridAt xs xi) * gridAt ks ki, gridAt xs xi,
          Spec.gridErr S o0 c f bkf ks xs i0 j0 ki.toNat xi.toNat) :: s.trials := by
      rw [hE, ← te]
      unfold getSsq; simp only [hs]
    have mono : ∀ a b, s.store a b ≠ none → (fun a b => if a = ki ∧ b = xi then
          some (Spec.gridErr S o0 c f bkf ks xs i0 j0 ki.toNat xi.toNat) else s.store a b) a b ≠ none := by
      intro a b hab
      simp only
      split
      · exact Option.some_ne_none _
      · exact hab
    rw [e, e1]
    refine ⟨⟨g, b, ?_, ?_, ?_⟩, rfl, mono, by simp⟩
    · rw [hst, e]
      intro a b v hv
      simp only at hv
      split at hv
      · rename_i hab
        rw [hab.1, hab.2]
        exact ⟨hk0, hx0, (Option.some.inj hv).symm⟩
      · exact h.val a b v hv
    · rw [hst, e]
      exact mono _ _ h.start
    · rw [htr, e2]
      intro t ht
      rcases List.mem_cons.1 ht with rfl | ht
      · refine Or.inr ⟨gridAt ks ki, ?_, ?_, rfl⟩
        · exact gridAt_mem (by omega)
        · show gridAt xs xi ∈ xs
          exact gridAt_mem (by omega)
      · exact h.tr t ht

/-- A look at a neighbour if there is one. -/
theorem OnGrid.lookIf {s : Srch} (h : OnGrid S c o0 f bkf ks xs i0 j0 s)
    (hr : Spec.Ready o0) (hl : o0.kInputList = false) (ho : o0.optimize = false) (there : Bool) {ki xi : ℤ}
    (hin : there = true → 0 ≤ ki ∧ ki < ks.length ∧ 0 ≤ xi ∧ xi < xs.length) {base kf xn : ℝ}
    (e1 : base = f (gridAt xs xi)) (e2 : kf = gridAt ks ki) (e3 : xn = gridAt xs xi) :
    OnGrid S c o0 f bkf ks xs i0 j0 (probeIf S c there base kf xn ki xi s).2 ∧
    (there = true → (probeIf S c there base kf xn ki xi s).1 =
      Spec.gridErr S o0 c f bkf ks xs i0 j0 ki.toNat xi.toNat) ∧
    (∀ a b, s.store a b ≠ none → (probeIf S c there base kf xn ki xi s).2.store a b ≠ none) ∧
    (there = true → (probeIf S c there base kf xn ki xi s).2.store ki xi ≠ none) := by
  subst e1 e2 e3
  unfold probeIf
  cases there with
  | false => exact ⟨h, fun h => (by cases h), fun _ _ hab => hab, fun h => (by cases h)⟩
  | true =>
    obtain ⟨p1, p2, p3, p4⟩ := hin rfl
    obtain ⟨q1, q2, q3, q4⟩ := h.look hr hl ho p1 p2 p3 p4
    exact ⟨q1, fun _ => q2, q3, fun _ => q4⟩

/-- The five looks of a pass. -/
theorem OnGrid.around {s : Srch} (h : OnGrid S c o0 f bkf ks xs i0 j0 s) (hf : o0.kByXn c = some f)
    (hr : Spec.Ready o0) (hl : o0.kInputList = false) (ho : o0.optimize = false) {ki xi : ℕ}
    (hk : ki < ks.length) (hx : xi < xs.length) {a : Around} (ha : lookAround S c ks xs ki xi s = a) :
    OnGrid S c o0 f bkf ks xs i0 j0 a.srch ∧
    (∀ p q, s.store p q ≠ none → a.srch.store p q ≠ none) ∧
    a.srch.store ki xi ≠ none ∧ a.base = Spec.gridErr S o0 c f bkf ks xs i0 j0 ki xi ∧
    (xi + 1 < xs.length → a.srch.store ki ((xi + 1 : ℕ) : ℤ) ≠ none ∧
      a.right = Spec.gridErr S o0 c f bkf ks xs i0 j0 ki (xi + 1)) ∧
    (1 ≤ xi → a.srch.store ki ((xi - 1 : ℕ) : ℤ) ≠ none ∧
      a.left = Spec.gridErr S o0 c f bkf ks xs i0 j0 ki (xi - 1)) ∧
    (ki + 1 < ks.length → a.srch.store ((ki + 1 : ℕ) : ℤ) xi ≠ none ∧
      a.upper = Spec.gridErr S o0 c f bkf ks xs i0 j0 (ki + 1) xi) ∧
    (1 ≤ ki → a.srch.store ((ki - 1 : ℕ) : ℤ) xi ≠ none ∧
      a.lower = Spec.gridErr S o0 c f bkf ks xs i0 j0 (ki - 1) xi) := by
  have c0 := h.baseK hf (gridAt xs (xi : ℤ))
  obtain ⟨h0, v0, m0, k0⟩ := h.look hr hl ho (ki := (ki : ℤ)) (xi := (xi : ℤ)) (by omega) (by omega) (by omega)
    (by omega)
  rw [← c0] at h0 v0 m0 k0
  obtain ⟨h1, v1, m1, k1⟩ := h0.lookIf hr hl ho (decide ((xi : ℤ) < (xs.length : ℤ) - 1)) (ki := (ki : ℤ))
    (xi := (xi : ℤ) + 1) (fun ht => by have := of_decide_eq_true ht; omega) (h0.baseK hf _) rfl rfl
  obtain ⟨h2, v2, m2, k2⟩ := h1.lookIf hr hl ho (decide ((xi : ℤ) ≥ 1)) (ki := (ki : ℤ))
    (xi := (xi : ℤ) - 1) (fun ht => by have := of_decide_eq_true ht; omega) (h1.baseK hf _) rfl rfl
  obtain ⟨h3, v3, m3, k3⟩ := h2.lookIf hr hl ho (decide ((ki : ℤ) < (ks.length : ℤ) - 1)) (ki := (ki : ℤ) + 1)
    (xi := (xi : ℤ)) (fun ht => by have := of_decide_eq_true ht; omega) c0 rfl rfl
  obtain ⟨h4, v4, m4, k4⟩ := h3.lookIf hr hl ho (decide ((ki : ℤ) ≥ 1)) (ki := (ki : ℤ) - 1)
    (xi := (xi : ℤ)) (fun ht => by have := of_decide_eq_true ht; omega) c0 rfl rfl
  subst ha
  refine ⟨h4, fun p q hpq => m4 _ _ (m3 _ _ (m2 _ _ (m1 _ _ (m0 _ _ hpq)))),
    m4 _ _ (m3 _ _ (m2 _ _ (m1 _ _ k0))), ?_, fun hh => ?_, fun hh => ?_, fun hh => ?_, fun hh => ?_⟩
  · exact v0
  · have ht : decide ((xi : ℤ) < (xs.length : ℤ) - 1) = true := decide_eq_true (by omega)
    have e : (((xi + 1 : ℕ) : ℤ)) = (xi : ℤ) + 1 := by push_cast; rfl
    refine ⟨?_, (v1 ht).trans ?_⟩
    · rw [e]
      exact m4 _ _ (m3 _ _ (m2 _ _ (k1 ht)))
    · rw [← e, Int.toNat_natCast, Int.toNat_natCast]
  · have ht : decide ((xi : ℤ) ≥ 1) = true := decide_eq_true (by omega)
    have e : (((xi - 1 : ℕ) : ℤ)) = (xi : ℤ) - 1 := by omega
    refine ⟨?_, (v2 ht).trans ?_⟩
    · rw [e]
      exact m4 _ _ (m3 _ _ (k2 ht))
    · rw [← e, Int.toNat_natCast, Int.toNat_natCast]
  · have ht : decide ((ki : ℤ) < (ks.length : ℤ) - 1) = true := decide_eq_true (by omega)
    have e : (((ki + 1 : ℕ) : ℤ)) = (ki : ℤ) + 1 := by push_cast; rfl
    refine ⟨?_, (v3 ht).trans ?_⟩
    · rw [e]
      exact m4 _ _ (k3 ht)
    · rw [← e, Int.toNat_natCast, Int.toNat_natCast]
  · have ht : decide ((ki : ℤ) ≥ 1) = true := decide_eq_true (by omega)
    have e : (((ki - 1 : ℕ) : ℤ)) = (ki : ℤ) - 1 := by omega
    refine ⟨?_, (v4 ht).trans ?_⟩
    · rw [e]
      exact k4 ht
    · rw [← e, Int.toNat_natCast, Int.toNat_natCast]

/-! ### The rough search -/

theorem probe_bestSsq (base kf xn : ℝ) (ki xi : ℤ) (s : Srch) :
    (probe S c base kf xn ki xi s).2.bestSsq =
      if (probe S c base kf xn ki xi s).1 < s.bestSsq then (probe S c base kf xn ki xi s).1 else s.bestSsq := by
  have e : (getSsq S c base kf xn ki xi s).2.bestSsq = s.bestSsq := by
    unfold getSsq
    simp only
    split <;> rfl
  unfold probe
  simp only [e]
  split
  · rfl
  · exact e

/-- The rough search knows all its positions, and stands at the best of them and the start. -/
theorem OnGrid.rough (hf : o0.kByXn c = some f)
    (hr : Spec.Ready o0) (hl : o0.kInputList = false) (ho : o0.optimize = false) (hi0 : i0 < ks.length) :
    ∀ (L : List ℤ) (acc : Srch × ℤ) (_ : ∀ i ∈ L, 0 ≤ i ∧ i < xs.length)
      (_ : OnGrid S c o0 f bkf ks xs i0 j0 acc.1) (_ : 0 ≤ acc.2) (_ : acc.2 < xs.length)
      (_ : acc.1.bestSsq = Spec.gridErr S o0 c f bkf ks xs i0 j0 i0 acc.2.toNat) (r : Srch × ℤ)
      (_ : L.foldl (roughStep S c ks xs i0) acc = r),
      OnGrid S c o0 f bkf ks xs i0 j0 r.1 ∧ 0 ≤ r.2 ∧ r.2 < xs.length ∧
      r.1.bestSsq = Spec.gridErr S o0 c f bkf ks xs i0 j0 i0 r.2.toNat ∧ (r.2 = acc.2 ∨ r.2 ∈ L) ∧
      (∀ a b, acc.1.store a b ≠ none → r.1.store a b ≠ none) ∧ ∀ i ∈ L, r.1.store i0 i ≠ none
  | [], acc, _, h, h0, h1, hb, r, hrr => by
    subst hrr
    exact ⟨h, h0, h1, hb, Or.inl rfl, fun _ _ hab => hab, fun i hi => (by cases hi)⟩
  | i :: L, acc, hL, h, h0, h1, hb, r, hrr => by
    obtain ⟨p0, p1⟩ := hL i List.mem_cons_self
    obtain ⟨q1, q2, q3, q4⟩ := h.look hr hl ho (ki := (i0 : ℤ)) (xi := i) (by omega) (by omega) p0 p1
    have hbest := probe_bestSsq (S := S) (c := c) (f (gridAt xs i)) (gridAt ks i0) (gridAt xs i) i0 i acc.1
    rw [← h.baseK hf] at q1 q2 q3 q4 hbest
    have hs1 : (roughStep S c ks xs i0 acc i).1 =
      (probe S c (WTM.baseK c (gridAt xs i) acc.1) (gridAt ks i0) (gridAt xs i) i0 i acc.1).2 := rfl
    have hs2 : (roughStep S c ks xs i0 acc i).2 =
      if (probe S c (WTM.baseK c (gridAt xs i) acc.1) (gridAt ks i0) (gridAt xs i) i0 i acc.1).1 < acc.1.bestSsq
        then i else acc.2 := rfl
    have hb' : (roughStep S c ks xs i0 acc i).1.bestSsq =
        Spec.gridErr S o0 c f bkf ks xs i0 j0 i0 (roughStep S c ks xs i0 acc i).2.toNat := by
      rw [hs1, hs2, hbest]
      split
      · rw [q2, Int.toNat_natCast]
      · exact hb
    have hpos : (roughStep S c ks xs i0 acc i).2 = i ∨ (roughStep S c ks xs i0 acc i).2 = acc.2 := by
      rw [hs2]
      split
      · exact Or.inl rfl
      · exact Or.inr rfl
    obtain ⟨r1, r2, r3, r4, r5, r6, r7⟩ := OnGrid.rough hf hr hl ho hi0 L (roughStep S c ks xs i0 acc i)
      (fun j hj => hL j (List.mem_cons_of_mem _ hj)) q1 (by rcases hpos with e | e <;> rw [e] <;> assumption)
      (by rcases hpos with e | e <;> rw [e] <;> assumption) hb' r hrr
    refine ⟨r1, r2, r3, r4, ?_, fun a b hab => r6 a b (q3 a b hab), fun j hj => ?_⟩
    · rcases r5 with e | e
      · rcases hpos with e' | e'
        · exact Or.inr (by rw [e, e']; exact List.mem_cons_self)
        · exact Or.inl (e.trans e')
      · exact Or.inr (List.mem_cons_of_mem _ e)
    · rcases List.mem_cons.1 hj with rfl | hj
      · exact r6 _ _ q4
      · exact r7 j hj

/-! ### The loop -/

theorem smartDecide_same (limit : ℝ) (loops : ℕ) (xi ki sx sk : ℤ) (base : ℝ) (s : Srch) :
    (smartDecide c limit loops xi ki sx sk base s).2.srch.bestSsq = s.bestSsq ∧
    (smartDecide c limit loops xi ki sx sk base s).2.srch.bestK = s.bestK ∧
    (smartDecide c limit loops xi ki sx sk base s).2.srch.bestXn = s.bestXn ∧
    ((smartDecide c limit loops xi ki sx sk base s).1 = true → (loops : ℝ) < limit →
      |base - s.bestSsq| ≤ 1e-7 ∨ (sk = 0 ∧ sx = 0)) := by
  unfold smartDecide
  by_cases h : |base - s.bestSsq| ≤ 1e-7 ∨ (loops : ℝ) ≥ limit
  · rw [if_pos h]
    split
    · exact ⟨rfl, rfl, rfl, fun _ hlt => h.imp_right fun h => absurd h (not_le.2 hlt)⟩
    · exact ⟨rfl, rfl, rfl, fun _ hlt => h.imp_right fun h => absurd h (not_le.2 hlt)⟩
  · rw [if_neg h]
    split
    · rename_i hs
      exact ⟨rfl, rfl, rfl, fun _ _ => Or.inr hs⟩
    · exact ⟨rfl, rfl, rfl, fun hh => (by cases hh)⟩

theorem shiftOf_zero {up down base : ℝ} {i n : ℕ} (h : shiftOf up down base i n = 0) :
    (i + 1 < n → base < up) ∧ (1 ≤ i → base < down) := by
  unfold shiftOf at h
  split at h
  · cases h
  · rename_i h1
    split at h
    · cases h
    · rename_i h2
      refine ⟨fun hi => ?_, fun hi => ?_⟩
      · by_contra hc
        exact h1 ⟨not_lt.1 hc, by omega⟩
      · by_contra hc
        exact h2 ⟨not_lt.1 hc, by omega⟩

/-- What the loop leaves: a state of the grid, with what was known still known, the neighbours of the first
position known, and a local minimum unless the limit was reached. -/
theorem OnGrid.loop (hf : o0.kByXn c = some f)
    (hr : Spec.Ready o0) (hl : o0.kInputList = false) (ho : o0.optimize = false) {limit : ℝ} :
    ∀ (fuel : ℕ) (l : LoopSt) (p q : ℕ) (_ : OnGrid S c o0 f bkf ks xs i0 j0 l.srch)
      (_ : l.kIdx + l.shiftK = p) (_ : l.xnIdx + l.shiftXn = q) (_ : p < ks.length) (_ : q < xs.length)
      (l' : LoopSt) (_ : smartLoop S c ks xs limit fuel l = some l'),
      ∃ s, OnGrid S c o0 f bkf ks xs i0 j0 s ∧ l'.srch.bestSsq = s.bestSsq ∧ l'.srch.bestK = s.bestK ∧
        l'.srch.bestXn = s.bestXn ∧ l'.srch.trials = s.trials ∧
        (∀ a b, l.srch.store a b ≠ none → s.store a b ≠ none) ∧
        Spec.AllNbrs ks.length xs.length p q (fun i j => s.store (i : ℤ) (j : ℤ) ≠ none) ∧
        ((l'.loops : ℝ) < limit → ∃ i j : ℕ, i < ks.length ∧ j < xs.length ∧ s.store (i : ℤ) (j : ℤ) ≠ none ∧
          Spec.AllNbrs ks.length xs.length i j fun i' j' =>
            Spec.gridErr S o0 c f bkf ks xs i0 j0 i j ≤ Spec.gridErr S o0 c f bkf ks xs i0 j0 i' j' + 1e-7)
  | 0, l, p, q, _, _, _, _, _, l', hs => by cases hs
  | fuel + 1, l, p, q, h, hp, hq, hpl, hql, l', hs => by
    unfold smartLoop at hs
    cases hit : smartIter S c ks xs limit l with
    | mk b l1 =>
    rw [hit] at hs
    unfold smartIter at hit
    simp only [hp, hq] at hit
    obtain ⟨g, mono, known, hbase, hright, hleft, hup, hlow⟩ := h.around hf hr hl ho hpl hql rfl
    generalize lookAround S c ks xs p q l.srch = a at *
    have nb : Spec.AllNbrs ks.length xs.length p q (fun i j => a.srch.store (i : ℤ) (j : ℤ) ≠ none) :=
      ⟨fun hh => (hup hh).1, fun hh => (hlow hh).1, fun hh => (hright hh).1, fun hh => (hleft hh).1⟩
    obtain ⟨s1, s2, s3, s4⟩ := smartDecide_same (c := c) limit (l.loops + 1) q p
      (shiftOf a.right a.left a.base q xs.length) (shiftOf a.upper a.lower a.base p ks.length) a.base a.srch
    obtain ⟨d1, d2, d3, d4, d5, d6, d7, d8, d9, d10⟩ := smartDecide_good hr g.good g.best limit (l.loops + 1) q p
      (shiftOf a.right a.left a.base q xs.length) (shiftOf a.upper a.lower a.base p ks.length) a.base
    rw [hit] at s1 s2 s3 s4 d1 d2 d3 d4 d5 d6 d7 d8 d9 d10
    simp only at s1 s2 s3 s4 d1 d2 d3 d4 d5 d6 d7 d8 d9 d10
    cases b with
    | true =>
      simp only [Option.some.injEq] at hs
      subst hs
      refine ⟨a.srch, g, s1, s2, s3, d7, mono, nb, fun hlt => ⟨p, q, hpl, hql, known, ?_⟩⟩
      rw [d1] at hlt
      rcases s4 rfl hlt with hc | ⟨hk, hx⟩
      · have key : ∀ i j : ℕ, a.srch.store (i : ℤ) (j : ℤ) ≠ none →
            Spec.gridErr S o0 c f bkf ks xs i0 j0 p q ≤ Spec.gridErr S o0 c f bkf ks xs i0 j0 i j + 1e-7 := by
          intro i j hij
          have h1 := g.known hij
          rw [Int.toNat_natCast, Int.toNat_natCast] at h1
          have h2 := (abs_le.1 hc).2
          rw [← hbase]
          linarith
        exact ⟨fun hh => key _ _ (nb.1 hh), fun hh => key _ _ (nb.2.1 hh), fun hh => key _ _ (nb.2.2.1 hh),
          fun hh => key _ _ (nb.2.2.2 hh)⟩
      · obtain ⟨k1, k2⟩ := shiftOf_zero hk
        obtain ⟨x1, x2⟩ := shiftOf_zero hx
        rw [hbase] at k1 k2 x1 x2
        refine ⟨fun hh => ?_, fun hh => ?_, fun hh => ?_, fun hh => ?_⟩
        · have := k1 hh; rw [(hup hh).2] at this; linarith
        · have := k2 hh; rw [(hlow hh).2] at this; linarith
        · have := x1 hh; rw [(hright hh).2] at this; linarith
        · have := x2 hh; rw [(hleft hh).2] at this; linarith
    | false =>
      obtain ⟨e1, -⟩ := d10 rfl
      obtain ⟨sk0, sk1⟩ := shiftOf_in (up := a.upper) (down := a.lower) (base := a.base) (i := (p : ℤ))
        (n := ks.length) (by omega) (by omega)
      obtain ⟨sx0, sx1⟩ := shiftOf_in (up := a.right) (down := a.left) (base := a.base) (i := (q : ℤ))
        (n := xs.length) (by omega) (by omega)
      obtain ⟨s, r1, r2, r3, r4, r5, r6, r7, r8⟩ := OnGrid.loop hf hr hl ho fuel l1
        (p + shiftOf a.upper a.lower a.base p ks.length).toNat
        (q + shiftOf a.right a.left a.base q xs.length).toNat
        (by rw [e1]; exact g) (by rw [d3, d5]; omega) (by rw [d2, d4]; omega) (by omega) (by omega) l' hs
      rw [e1] at r6
      exact ⟨s, r1, r2, r3, r4, r5, fun a' b' hab => r6 a' b' (mono a' b' hab),
        ⟨fun hh => r6 _ _ (nb.1 hh), fun hh => r6 _ _ (nb.2.1 hh), fun hh => r6 _ _ (nb.2.2.1 hh),
          fun hh => r6 _ _ (nb.2.2.2 hh)⟩, r8⟩

/-! ### The whole search -/

theorem roundN_zero_near {y : ℝ} : |(⌊roundN 0 y⌋ : ℝ) - y| ≤ 1 / 2 := by
  unfold roundN
  simp only [pow_zero, mul_one, div_one]
  rw [Int.floor_intCast]
  have h1 := Int.floor_le y
  have h2 := Int.lt_floor_add_one y
  rw [abs_le]
  split
  · constructor <;> linarith
  · rename_i h3
    split
    · push_cast
      constructor <;> linarith
    · split
      · constructor <;> linarith
      · push_cast
        constructor <;> linarith

end

open Classical in
/-- The steps of a search that returned. -/
theorem smartCompound_inv {S : Sim} {c : String} {o : GacObj} {bkf pm num desXn limit : ℝ} {l : LoopSt}
    (h : smartCompound S c bkf pm num desXn limit o = .ok l) :
    ∃ ks xs, smartGrids bkf pm num desXn = .ok (ks, xs) ∧ ∃ (i0 j0 : ℕ) (hi : i0 < ks.length) (hj : j0 < xs.length),
      ks[i0] = roundN 6 bkf ∧ xs[j0] = roundN 3 0.45 ∧
      ∃ (b : ℝ) (r : ℝ × Srch), baseK c 0.45 ⟨o, fun _ _ => none, 0.45, 0, 0, [], []⟩ = b ∧
        getSsq S c b bkf 0.45 i0 j0 ⟨o, fun _ _ => none, 0.45, 0, 0, [], []⟩ = r ∧
        ∃ rough, (roughIdx (xs.length - 1)).foldl (roughStep S c ks xs i0)
            ({ r.2 with bestK := b * bkf, bestSsq := r.1 }, (j0 : ℤ)) = rough ∧
          smartLoop S c ks xs limit (max 1 ⌈limit⌉₊) ⟨rough.1, rough.2, i0, 0, 0, 0⟩ = some l := by
  unfold smartCompound at h
  cases hg : smartGrids bkf pm num desXn with
  | error e => rw [hg] at h; cases h
  | ok g =>
    rw [hg] at h
    obtain ⟨ks, xs⟩ := g
    simp only [bind, Except.bind] at h
    refine ⟨ks, xs, rfl, ?_⟩
    split at h
    · rename_i i0 j0 h1 h2
      obtain ⟨hi, e1, -⟩ := List.findIdx?_eq_some_iff_getElem.1 h1
      obtain ⟨hj, e2, -⟩ := List.findIdx?_eq_some_iff_getElem.1 h2
      refine ⟨i0, j0, hi, hj, of_decide_eq_true e1, of_decide_eq_true e2, _, _, rfl, rfl, _, rfl, ?_⟩
      split at h
      · rename_i l' hl
        simp only [Except.ok.injEq] at h
        rw [← h]
        exact hl
      · cases h
    · cases h

/-- C226. What the smart search returns for a compound with a capacity function: constants no worse than the
start, than five evenly spread `1/n` values at the starting factor, and than the neighbours of the best of
these; and unless it ran into the limit, no worse than a position that is a local minimum of its grid up to
1e-7. -/
structure Spec.Searched (S : Sim) (o : GacObj) (c : String) (f : ℝ → ℝ) (bkf limit : ℝ) (ks xs : List ℝ) (i0 j0 : ℕ)
    (l : LoopSt) : Prop where
  rough : ∃ r : ℕ → ℕ, (∀ k ≤ 4, |4 * (r k : ℝ) - k * ((xs.length : ℝ) - 1)| ≤ 2) ∧
    ∃ j, (j = j0 ∨ ∃ k ≤ 4, j = r k) ∧
      Spec.gridErr S o c f bkf ks xs i0 j0 i0 j ≤ Spec.gridErr S o c f bkf ks xs i0 j0 i0 j0 ∧
      (∀ k ≤ 4, Spec.gridErr S o c f bkf ks xs i0 j0 i0 j ≤ Spec.gridErr S o c f bkf ks xs i0 j0 i0 (r k)) ∧
      Spec.fitError S o c l.srch.bestK l.srch.bestXn ≤ Spec.gridErr S o c f bkf ks xs i0 j0 i0 j ∧
      Spec.AllNbrs ks.length xs.length i0 j fun i' j' =>
        Spec.fitError S o c l.srch.bestK l.srch.bestXn ≤ Spec.gridErr S o c f bkf ks xs i0 j0 i' j'
  localMin : (l.loops : ℝ) < limit → ∃ i j : ℕ, i < ks.length ∧ j < xs.length ∧
    Spec.fitError S o c l.srch.bestK l.srch.bestXn ≤ Spec.gridErr S o c f bkf ks xs i0 j0 i j ∧
    Spec.AllNbrs ks.length xs.length i j fun i' j' =>
      Spec.gridErr S o c f bkf ks xs i0 j0 i j ≤ Spec.gridErr S o c f bkf ks xs i0 j0 i' j' + 1e-7

theorem searched_aux {S : Sim} {c : String} {o0 : GacObj} {f : ℝ → ℝ} {bkf pm num desXn limit : ℝ} {l : LoopSt}
    (hr : Spec.Ready o0) (hl : o0.kInputList = false) (ho : o0.optimize = false) (hf : o0.kByXn c = some f)
    (h : smartCompound S c bkf pm num desXn limit o0 = .ok l) :
    ∃ ks xs i0 j0, smartGrids bkf pm num desXn = .ok (ks, xs) ∧
      ks[i0]? = some (roundN 6 bkf) ∧ xs[j0]? = some (roundN 3 0.45) ∧
      (∀ t ∈ l.srch.trials, Spec.GridTrial f bkf ks xs t.1 t.2.1) ∧
      Spec.Searched S o0 c f bkf limit ks xs i0 j0 l := by
  obtain ⟨ks, xs, hg, i0, j0, hi, hj, e1, e2, b, r, hb, hr', rough, hrough, hloop⟩ := smartCompound_inv h
  have hbf : b = f 0.45 := by
    rw [← hb]
    unfold baseK
    simp only [hf]
  have gs : Good S c o0 ks.length xs.length ⟨o0, fun _ _ => none, 0.45, 0, 0, [], []⟩ :=
    ⟨Frame.refl c o0, fun t ht => (by cases ht), fun a b v h => (by cases h), fun p hp => (by cases hp)⟩
  obtain ⟨g1, -, x2, -, x4⟩ := getSsq_good hr hl ho gs b bkf 0.45 (ki := i0) (xi := j0)
    (by omega) (by omega) (by omega) (by omega)
  have hst : r.2.store = fun a b => if a = (i0 : ℤ) ∧ b = (j0 : ℤ) then some r.1 else none := by
    rw [← hr']; rfl
  rw [hr'] at g1 x2 x4
  rcases x4 with ⟨-, t, ht, -⟩ | ⟨-, ht⟩
  · cases ht
  have herr := g1.errs (b * bkf, 0.45, r.1) (by rw [ht]; exact List.mem_cons_self)
  simp only at herr
  have hE : Spec.gridErr S o0 c f bkf ks xs i0 j0 i0 j0 = r.1 := by
    unfold Spec.gridErr
    rw [if_pos ⟨rfl, rfl⟩, herr, hbf]
  have g2 : OnGrid S c o0 f bkf ks xs i0 j0 { r.2 with bestK := b * bkf, bestSsq := r.1 } := by
    refine ⟨⟨g1.frame, g1.errs, g1.cache, g1.range⟩, ?_, fun a' b' v hv => ?_, ?_, fun t' ht' => ?_⟩
    · unfold Best
      simp only [x2, ht]
      refine ⟨List.mem_cons_self, fun t htt => ?_⟩
      rw [List.mem_singleton.1 htt]
    · simp only [hst] at hv
      split at hv
      · rename_i hab
        rw [hab.1, hab.2, Int.toNat_natCast, Int.toNat_natCast, hE]
        exact ⟨by omega, by omega, (Option.some.inj hv).symm⟩
      · cases hv
    · simp [hst]
    · simp only [ht] at ht'
      rw [List.mem_singleton.1 ht']
      exact Or.inl ⟨by rw [hbf], rfl⟩
  obtain ⟨q1, q2, q3, q4, q5, q6, q7⟩ := OnGrid.rough hf hr hl ho hi (roughIdx (xs.length - 1))
    ({ r.2 with bestK := b * bkf, bestSsq := r.1 }, (j0 : ℤ))
    (fun i hi => by have := roughIdx_mem hi; omega) g2 (by simp) (by simp; omega)
    (by simp only [Int.toNat_natCast]; exact hE.symm) rough hrough
  obtain ⟨s, r1, r2, r3, r4, r5, r6, r7, r8⟩ := OnGrid.loop hf hr hl ho (max 1 ⌈limit⌉₊)
    ⟨rough.1, rough.2, i0, 0, 0, 0⟩ i0 rough.2.toNat q1 (by simp) (by simp; omega) hi (by omega) l hloop
  have hfit : Spec.fitError S o0 c l.srch.bestK l.srch.bestXn = s.bestSsq := by
    have := r1.good.errs _ r1.best.1
    simp only at this
    rw [r3, r4, this]
  refine ⟨ks, xs, i0, j0, hg, by rw [List.getElem?_eq_getElem hi, e1], by rw [List.getElem?_eq_getElem hj, e2],
    fun t ht => r1.tr t (r5 ▸ ht), ⟨?_, ?_⟩⟩
  · refine ⟨fun k => ⌊roundN 0 (((xs.length - 1 : ℕ) : ℝ) * k / 4)⌋.toNat, fun k hk => ?_, rough.2.toNat, ?_, ?_,
      fun k hk => ?_, ?_, ?_⟩
    · have hm : ⌊roundN 0 (((xs.length - 1 : ℕ) : ℝ) * k / 4)⌋ ∈ roughIdx (xs.length - 1) :=
        List.mem_map.2 ⟨k, List.mem_range.2 (by omega), rfl⟩
      have h0 := (roughIdx_mem hm).1
      have hn := roundN_zero_near (y := ((xs.length - 1 : ℕ) : ℝ) * k / 4)
      have hc : ((⌊roundN 0 (((xs.length - 1 : ℕ) : ℝ) * k / 4)⌋.toNat : ℕ) : ℝ) =
          (⌊roundN 0 (((xs.length - 1 : ℕ) : ℝ) * k / 4)⌋ : ℝ) := by
        have : ((⌊roundN 0 (((xs.length - 1 : ℕ) : ℝ) * k / 4)⌋.toNat : ℕ) : ℤ) =
          ⌊roundN 0 (((xs.length - 1 : ℕ) : ℝ) * k / 4)⌋ := Int.toNat_of_nonneg h0
        exact_mod_cast this
      have hl1 : ((xs.length - 1 : ℕ) : ℝ) = (xs.length : ℝ) - 1 := by
        rw [Nat.cast_sub (by omega)]; norm_num
      rw [hc]
      rw [hl1] at hn ⊢
      rw [abs_le] at hn ⊢
      constructor <;> linarith [hn.1, hn.2]
    · rcases q5 with e | e
      · left
        rw [e]
        simp
      · right
        obtain ⟨k, hk, e⟩ := List.mem_map.1 e
        have hk := List.mem_range.1 hk
        exact ⟨k, by omega, by rw [← e]⟩
    · rw [← q4]
      have := q1.known q1.start
      simpa using this
    · rw [← q4]
      have := q1.known (q7 _ (List.mem_map.2 ⟨k, List.mem_range.2 (by omega), rfl⟩))
      simpa using this
    · rw [hfit]
      have hpos : rough.1.store i0 rough.2 ≠ none := by
        rcases q5 with e | e
        · rw [e]; exact q1.start
        · exact q7 _ e
      have := r1.known (r6 _ _ hpos)
      simpa using this
    · rw [hfit]
      refine ⟨fun hh => ?_, fun hh => ?_, fun hh => ?_, fun hh => ?_⟩
      · have := r1.known (r7.1 hh); rwa [Int.toNat_natCast, Int.toNat_natCast] at this
      · have := r1.known (r7.2.1 hh); rwa [Int.toNat_natCast, Int.toNat_natCast] at this
      · have := r1.known (r7.2.2.1 hh); rwa [Int.toNat_natCast, Int.toNat_natCast] at this
      · have := r1.known (r7.2.2.2 hh); rwa [Int.toNat_natCast, Int.toNat_natCast] at this
  · intro hlt
    obtain ⟨i, j, a1, a2, a3, a4⟩ := r8 hlt
    refine ⟨i, j, a1, a2, ?_, a4⟩
    rw [hfit]
    simpa using r1.known a3

/-- C226. -/
theorem c226_search {S : Sim} {c : String} {o0 : GacObj} {f : ℝ → ℝ} {bkf pm num desXn limit : ℝ} {l : LoopSt}
    (hr : Spec.Ready o0) (hl : o0.kInputList = false) (ho : o0.optimize = false) (hf : o0.kByXn c = some f)
    (h : smartCompound S c bkf pm num desXn limit o0 = .ok l) :
    ∃ ks xs i0 j0, smartGrids bkf pm num desXn = .ok (ks, xs) ∧
      ks[i0]? = some (roundN 6 bkf) ∧ xs[j0]? = some (roundN 3 0.45) ∧
      Spec.Searched S o0 c f bkf limit ks xs i0 j0 l := by
  obtain ⟨ks, xs, i0, j0, h1, h2, h3, -, h5⟩ := searched_aux hr hl ho hf h
  exact ⟨ks, xs, i0, j0, h1, h2, h3, h5⟩

/-- The hypotheses of `c226_search` and `c225_partial`: any simulation, the default widths, capacity `x ↦ 3 x`. -/
example (S : Sim) (o : GacObj) (hc : Spec.Clean o) : ∃ l,
    smartCompound S "a" 2 50 (10 : ℕ) 0.025 50
      { o with kInputList := false, optimize := false, kByXn := fun _ => some fun x => 3 * x } = .ok l ∧
    Spec.Ready { o with kInputList := false, optimize := false, kByXn := fun _ => some fun x => 3 * x } := by
  obtain ⟨ks, xs, g1, g2, g3⟩ := c54_grids (bkf := 2) (pm := 50) (desXn := 0.025) (num := 10) (m := 10)
    (by norm_num) (by norm_num) (by norm_num) (by norm_num) (by norm_num)
  have hr : Spec.Ready { o with kInputList := false, optimize := false, kByXn := fun _ => some fun x => 3 * x } :=
    Clean.ready hc
  obtain ⟨l, h, -⟩ := c54_search (S := S) (c := "a") (limit := 50) hr rfl rfl g1 g2 g3
  exact ⟨l, h, hr⟩

/-! ### C225: the points tried -/

/-- The capacity a compound starts from at each `1/n`: its function, or the `K` of its table. -/
noncomputable def Spec.capacityOf (o : GacObj) (c : String) : ℝ → ℝ :=
  match o.kByXn c with
  | some f => f
  | none => fun _ => (o.core.kData c).K

/-- C225, in full: every pair of constants tried is a `1/n` of the grid with the compound's capacity there
times a factor of the grid (or the start itself). -/
def C225 : Prop := ∀ (S : Sim) (c : String) (o0 : GacObj) (bkf pm num desXn limit : ℝ) (l : LoopSt),
  Spec.Ready o0 → o0.kInputList = false → o0.optimize = false →
  smartCompound S c bkf pm num desXn limit o0 = .ok l →
  ∃ ks xs, smartGrids bkf pm num desXn = .ok (ks, xs) ∧
    ∀ t ∈ l.srch.trials, Spec.GridTrial (Spec.capacityOf o0 c) bkf ks xs t.1 t.2.1

/-- C225 for compounds with a capacity function. Missing: compounds whose `K` was supplied. -/
theorem c225_partial {S : Sim} {c : String} {o0 : GacObj} {f : ℝ → ℝ} {bkf pm num desXn limit : ℝ} {l : LoopSt}
    (hr : Spec.Ready o0) (hl : o0.kInputList = false) (ho : o0.optimize = false) (hf : o0.kByXn c = some f)
    (h : smartCompound S c bkf pm num desXn limit o0 = .ok l) :
    ∃ ks xs, smartGrids bkf pm num desXn = .ok (ks, xs) ∧
      ∀ t ∈ l.srch.trials, Spec.GridTrial (Spec.capacityOf o0 c) bkf ks xs t.1 t.2.1 := by
  obtain ⟨ks, xs, i0, j0, h1, -, -, h4, -⟩ := searched_aux hr hl ho hf h
  refine ⟨ks, xs, h1, ?_⟩
  unfold Spec.capacityOf
  rw [hf]
  exact h4

/-! #### Supplied `K`: the base drifts -/

theorem getSsq_trials {S : Sim} {c : String} (base kf xn : ℝ) (ki xi : ℤ) (s : Srch) :
    ∀ t ∈ s.trials, t ∈ (getSsq S c base kf xn ki xi s).2.trials := by
  intro t ht
  unfold getSsq
  simp only
  split
  · exact ht
  · exact List.mem_cons_of_mem _ ht

theorem probe_trials {S : Sim} {c : String} (base kf xn : ℝ) (ki xi : ℤ) (s : Srch) :
    ∀ t ∈ s.trials, t ∈ (probe S c base kf xn ki xi s).2.trials := by
  intro t ht
  have := getSsq_trials (S := S) (c := c) base kf xn ki xi s t ht
  unfold probe
  simp only
  split <;> exact this

theorem probeIf_trials {S : Sim} {c : String} (there : Bool) (base kf xn : ℝ) (ki xi : ℤ) (s : Srch) :
    ∀ t ∈ s.trials, t ∈ (probeIf S c there base kf xn ki xi s).2.trials := by
  intro t ht
  unfold probeIf
  split
  · exact probe_trials _ _ _ _ _ _ t ht
  · exact ht

theorem smartDecide_trials {c : String} (limit : ℝ) (loops : ℕ) (xi ki sx sk : ℤ) (base : ℝ) (s : Srch) :
    (smartDecide c limit loops xi ki sx sk base s).2.srch.trials = s.trials := by
  unfold smartDecide
  split
  · split <;> rfl
  · split <;> rfl

theorem smartIter_trials {S : Sim} {c : String} {ks xs : List ℝ} {limit : ℝ} (l : LoopSt) :
    ∀ t ∈ l.srch.trials, t ∈ (smartIter S c ks xs limit l).2.srch.trials := by
  intro t ht
  unfold smartIter
  simp only
  rw [smartDecide_trials]
  exact probeIf_trials _ _ _ _ _ _ _ t (probeIf_trials _ _ _ _ _ _ _ t (probeIf_trials _ _ _ _ _ _ _ t
    (probeIf_trials _ _ _ _ _ _ _ t (probe_trials _ _ _ _ _ _ t ht))))

theorem smartLoop_trials {S : Sim} {c : String} {ks xs : List ℝ} {limit : ℝ} :
    ∀ (fuel : ℕ) (l l' : LoopSt), smartLoop S c ks xs limit fuel l = some l' →
      ∀ t ∈ l.srch.trials, t ∈ l'.srch.trials
  | 0, l, l', h => by cases h
  | fuel + 1, l, l', h => by
    intro t ht
    have h1 := smartIter_trials (S := S) (c := c) (ks := ks) (xs := xs) (limit := limit) l t ht
    unfold smartLoop at h
    cases hit : smartIter S c ks xs limit l with
    | mk b l1 =>
    rw [hit] at h h1
    cases b with
    | true =>
      simp only [Option.some.injEq] at h
      rw [← h]
      exact h1
    | false => exact smartLoop_trials fuel l1 l' h t h1

theorem rough_trials {S : Sim} {c : String} {ks xs : List ℝ} {ki : ℤ} :
    ∀ (L : List ℤ) (acc : Srch × ℤ), ∀ t ∈ acc.1.trials, t ∈ (L.foldl (roughStep S c ks xs ki) acc).1.trials
  | [], _, _, ht => ht
  | _ :: L, _, t, ht => rough_trials L _ t (probe_trials _ _ _ _ _ _ t ht)

/-- C225, the failure in general: for a compound without a capacity function, looking again at a position
already known multiplies the `K` in the table by the factor, and the next trial starts from that product. -/
theorem c225_drift {S : Sim} {c : String} {ks xs : List ℝ} {ki xi : ℤ} {s : Srch} {v : ℝ}
    (hn : s.obj.kByXn c = none) (hv : s.store ki xi = some v) (hx : xi < (xs.length : ℤ) - 1)
    (hu : s.store ki (xi + 1) = none) :
    ∃ e, ((s.obj.core.kData c).K * gridAt ks ki * gridAt ks ki, gridAt xs (xi + 1), e) ∈
      (lookAround S c ks xs ki xi s).srch.trials := by
  set p0 := probe S c (baseK c (gridAt xs xi) s) (gridAt ks ki) (gridAt xs xi) ki xi s with hp0
  have hb : baseK c (gridAt xs xi) s = (s.obj.core.kData c).K := by
    unfold baseK; rw [hn]
  have hg : getSsq S c (baseK c (gridAt xs xi) s) (gridAt ks ki) (gridAt xs xi) ki xi s =
      (v, { s with
        obj := { s.obj with core := { s.obj.core with
          kData := s.obj.core.kData.set c ((s.obj.core.kData c).K * gridAt ks ki) (gridAt xs xi) } }
        touched := (ki, xi) :: s.touched }) := by
    unfold getSsq
    simp only [hv, hb]
  have ho : p0.2.obj = { s.obj with core := { s.obj.core with
      kData := s.obj.core.kData.set c ((s.obj.core.kData c).K * gridAt ks ki) (gridAt xs xi) } } := by
    rw [hp0]; unfold probe; simp only [hg]; split <;> rfl
  have hs : p0.2.store = s.store := by
    rw [hp0]; unfold probe; simp only [hg]; split <;> rfl
  have hb2 : baseK c (gridAt xs (xi + 1)) p0.2 = (s.obj.core.kData c).K * gridAt ks ki := by
    unfold baseK
    rw [ho]
    simp only [hn]
    unfold KTab.set
    simp only [if_true]
  have key : ∃ e, ((s.obj.core.kData c).K * gridAt ks ki * gridAt ks ki, gridAt xs (xi + 1), e) ∈
      (probeIf S c (xi < (xs.length : ℤ) - 1) (baseK c (gridAt xs (xi + 1)) p0.2) (gridAt ks ki)
        (gridAt xs (xi + 1)) ki (xi + 1) p0.2).2.trials := by
    rw [hb2]
    unfold probeIf
    rw [if_pos (decide_eq_true hx)]
    have : ∃ e, (getSsq S c ((s.obj.core.kData c).K * gridAt ks ki) (gridAt ks ki) (gridAt xs (xi + 1)) ki (xi + 1)
        p0.2).2.trials = ((s.obj.core.kData c).K * gridAt ks ki * gridAt ks ki, gridAt xs (xi + 1), e) ::
        p0.2.trials := by
      unfold getSsq
      simp only [hs, hu]
      exact ⟨_, rfl⟩
    obtain ⟨e, he⟩ := this
    refine ⟨e, ?_⟩
    unfold probe
    simp only
    split <;> (show _ ∈ (getSsq S c _ _ _ _ _ _).2.trials; rw [he]; exact List.mem_cons_self)
  obtain ⟨e, he⟩ := key
  exact ⟨e, probeIf_trials _ _ _ _ _ _ _ _ (probeIf_trials _ _ _ _ _ _ _ _ (probeIf_trials _ _ _ _ _ _ _ _ he))⟩

/-- A column whose only compound has a supplied `K` of 1 and whose runs raise (there is no measured curve). -/
noncomputable def driftObj : GacObj where
  core := ⟨⟨1, 1, 1, 1, 1, 1, 1, 1, 1, 1⟩, fun _ => ⟨1, 0.45, 1, 1, 1⟩, ⟨fun _ => none, fun _ => none⟩, ["a"], 1, 1, 1,
    fun _ => ⟨1, 1, 1⟩⟩
  der := derive 1 1 ⟨1, 1, 1, 1, 1, 1, 1, 1, 1, 1⟩
  bup := ⟨⟨1, 1, 1, 1, 1, 1, 1, 1, 1, 1⟩, fun _ => ⟨1, 0.45, 1, 1, 1⟩, ⟨fun _ => none, fun _ => none⟩, ["a"], 1, 1, 1,
    fun _ => ⟨1, 1, 1⟩⟩
  dw := 1
  vw := 1
  mtData := fun _ => ⟨1, 1, 1⟩
  optimize := false
  testRange := []
  xnRange := []
  kInputList := false
  xnDefault := 0.45
  kByXn := fun _ => none

theorem driftGrids : ∃ n, smartGrids 2 50 1 0.025 =
    .ok ([1, 2, 3], (0.2 : ℝ) :: (List.range n).map (fun k : ℕ => roundN 3 (0.2 + ((k + 1 : ℕ) : ℝ) * 0.025))) := by
  have r6 : ∀ k : ℕ, roundN 6 (k : ℝ) = k := fun k => roundN_of_int (n := (k : ℤ) * 10 ^ 6) (by push_cast; ring)
  have c1 : ⌈((2 : ℝ) * (1 + 50 / 100) + 2 * 50 / 100 / 1 / 2 - 2 * (1 - 50 / 100)) / (2 * 50 / 100 / 1)⌉₊ = 3 := by
    rw [Nat.ceil_eq_iff (by norm_num)]; norm_num
  have c2 : ∃ n, ⌈((1 : ℝ) + 0.025 / 2 - 0.2) / 0.025⌉₊ = n + 1 :=
    Nat.exists_eq_succ_of_ne_zero (Nat.ceil_pos.2 (by norm_num)).ne'
  obtain ⟨n, hn⟩ := c2
  refine ⟨n, ?_⟩
  unfold smartGrids arange
  simp only
  rw [if_neg (by norm_num), if_neg (by norm_num), c1, hn]
  simp only [bind, Except.bind, pure, Except.pure, Except.ok.injEq, Prod.mk.injEq]
  constructor
  · have h1 := r6 1
    have h2 := r6 2
    have h3 := r6 3
    norm_num at h1 h2 h3
    simp only [List.range_succ, List.range_zero]
    norm_num [h1, h2, h3]
  · rw [List.range_succ_eq_map]
    simp only [List.map_cons, List.map_map, List.cons.injEq]
    refine ⟨?_, rfl⟩
    rw [Nat.cast_zero, zero_mul, add_zero]
    exact roundN_of_int (n := 200) (by norm_num)

theorem c225_false : ¬ C225 := by
  intro h
  have hr : Spec.Ready driftObj := ⟨rfl, rfl, rfl, rfl⟩
  obtain ⟨ks0, xs0, g1, g2, g3⟩ := c54_grids (bkf := 2) (pm := 50) (desXn := 0.025) (num := 1) (m := 10)
    (by norm_num) (by norm_num) le_rfl (by norm_num) (by norm_num)
  obtain ⟨n, hn⟩ := driftGrids
  have S : Sim := fun _ _ => (.error .valueError, fun _ => ⟨1, 1, 1⟩)
  obtain ⟨l, hl, -⟩ := c54_search (S := S) (c := "a") (o0 := driftObj) (limit := 50) hr rfl rfl g1 g2 g3
  obtain ⟨ks, xs, k1, k2⟩ := h S "a" driftObj 2 50 _ 0.025 50 l hr rfl rfl hl
  obtain ⟨ks', xs', hg, i0, j0, hi, hj, e1, e2, b, r, hb, hr', rough, hrough, hloop⟩ := smartCompound_inv hl
  rw [Nat.cast_one, hn] at hg k1
  simp only [Except.ok.injEq, Prod.mk.injEq] at hg k1
  obtain ⟨rfl, rfl⟩ := k1
  obtain ⟨hks, hxs⟩ := hg
  have h2 : roundN 6 2 = 2 := roundN_of_int (n := 2000000) (by norm_num)
  have h45 : roundN 3 0.45 = 0.45 := roundN_of_int (n := 450) (by norm_num)
  have hj0 : j0 ≠ 0 := by
    rintro rfl
    have : xs'[0] = 0.2 := by simp [← hxs]
    rw [e2, h45] at this
    norm_num at this
  have hkf : gridAt ks' (i0 : ℤ) = 2 := by
    unfold gridAt
    rw [Int.toNat_natCast, List.getD_eq_getElem?_getD, List.getElem?_eq_getElem hi, e1, h2]
    rfl
  have hb1 : b = 1 := by rw [← hb]; rfl
  -- the state after the start
  have hK : (r.2.obj.core.kData "a").K = 2 := by
    have : (r.2.obj.core.kData "a").K = b * 2 := by rw [← hr']; rfl
    rw [this, hb1, one_mul]
  have hkx : r.2.obj.kByXn "a" = none := by rw [← hr']; rfl
  have hst : r.2.store (i0 : ℤ) 0 = none := by
    rw [← hr']
    show (if (i0 : ℤ) = i0 ∧ (0 : ℤ) = j0 then _ else none) = none
    rw [if_neg]
    rintro ⟨-, e⟩
    exact hj0 (by omega)
  have hidx : ∃ L, roughIdx (xs'.length - 1) = 0 :: L := by
    unfold roughIdx
    rw [List.range_succ_eq_map, List.map_cons, Nat.cast_zero, mul_zero, zero_div,
      roundN_of_int (n := 0) (by norm_num), Int.floor_zero]
    exact ⟨_, rfl⟩
  obtain ⟨L, hL⟩ := hidx
  have hfirst : ∃ e, (4, gridAt xs' 0, e) ∈ rough.1.trials := by
    rw [← hrough, hL, List.foldl_cons]
    set s1 : Srch := { r.2 with bestK := b * 2, bestSsq := r.1 } with hs1
    have hbk : baseK "a" (gridAt xs' 0) s1 = 2 := by
      unfold baseK
      rw [show s1.obj.kByXn "a" = none from hkx]
      exact hK
    have : ∃ e, (getSsq S "a" 2 2 (gridAt xs' 0) i0 0 s1).2.trials = (4, gridAt xs' 0, e) :: s1.trials := by
      unfold getSsq
      rw [show s1.store (i0 : ℤ) 0 = none from hst]
      exact ⟨_, by norm_num; rfl⟩
    obtain ⟨e, he⟩ := this
    refine ⟨e, rough_trials L _ _ ?_⟩
    unfold roughStep
    simp only [hbk, hkf]
    unfold probe
    simp only
    split <;> (show _ ∈ (getSsq S "a" _ _ _ _ _ _).2.trials; rw [he]; exact List.mem_cons_self)
  obtain ⟨e, he⟩ := hfirst
  rcases k2 _ (smartLoop_trials _ _ _ hloop _ he) with ⟨hc, -⟩ | ⟨k, hk, -, hc⟩
  · have : (4 : ℝ) = 1 * 2 := hc
    norm_num at this
  · have : (4 : ℝ) = 1 * k := hc
    rw [← this.trans (one_mul k)] at hk
    norm_num at hk

/-! ### C227: the settings left behind -/

/-- The settings of a fit that the user chose. -/
def Spec.FitSettings (o o' : GacObj) : Prop :=
  o'.optimize = o.optimize ∧ o'.testRange = o.testRange ∧ o'.xnRange = o.xnRange

/-- C227, in full: the three fits leave the optimise flag, the `K` multipliers and the `1/n` values alone. -/
def C227 : Prop := ∀ (S : Sim) (o : GacObj), Spec.Clean o →
  (∀ findMin brute g n, Spec.FitSettings o (runAll S findMin brute g n o).2) ∧
  (∀ findMin work flat, Spec.FitSettings o (runAllMP S findMin work flat o).2) ∧
  (∀ bkf pm num desXn limit o' log, runAllSmart S bkf pm num desXn limit o = .ok (o', log) →
    Spec.FitSettings o o')

/-- C227 for `run_all` and `run_all_MP` that return. Missing: runs that raise, and `run_all_smart`. -/
theorem c227_partial (S : Sim) (o : GacObj) :
    (∀ findMin brute g n log o', runAll S findMin brute g n o = (.ok log, o') → Spec.FitSettings o o') ∧
    (∀ findMin work flat log o', runAllMP S findMin work flat o = (.ok log, o') → Spec.FitSettings o o') := by
  constructor
  · intro findMin brute g n log o' h
    unfold runAll at h
    split at h
    · cases h
    · cases h
      exact ⟨rfl, rfl, rfl⟩
  · intro findMin work flat log o' h
    unfold runAllMP at h
    split at h
    · cases h
    · cases h
      exact ⟨rfl, rfl, rfl⟩

/-- C227, `run_all_smart`: the multipliers are kept; the flag is off afterwards whatever it was. -/
theorem c227_smart {S : Sim} {bkf : GacObj → String → ℝ} {pm num desXn limit : ℝ} {o o' : GacObj}
    {log : List (String × Srch)} (h : runAllSmart S bkf pm num desXn limit o = .ok (o', log)) :
    o'.testRange = o.testRange ∧ o'.xnRange = o.xnRange.map (roundN 5) ∧ o'.kInputList = o.kInputList := by
  unfold runAllSmart at h
  cases hs : smartAll S bkf pm num desXn limit o.core.compounds
      { o with kInputList := false, optimize := false } [] with
  | error e => rw [hs] at h; cases h
  | ok r =>
    rw [hs] at h
    simp only [bind, Except.bind, pure, Except.pure, Except.ok.injEq, Prod.mk.injEq] at h
    rw [← h.1]
    exact ⟨rfl, rfl, rfl⟩

theorem c227_false : ¬ C227 := by
  intro h
  have hc : Spec.Clean { driftObj with optimize := true } := ⟨rfl, rfl⟩
  obtain ⟨o', log, hr⟩ := c53_smart_returns (S := fun _ _ => (.ok fun _ _ => 0, fun _ => ⟨1, 1, 1⟩))
    (bkf := fun _ _ => 2) (pm := 50) (desXn := 0.025) (limit := 50) (num := 10) (m := 10) hc
    (fun _ _ => by norm_num) (by norm_num) (by norm_num) (by norm_num) (by norm_num)
  obtain ⟨h1, -⟩ := (h _ _ hc).2.2 _ _ _ _ _ _ _ hr
  obtain ⟨h2, -⟩ := c53_smart_flag (fun _ _ _ _ => rfl) hc (by show ["a"].Nodup; decide) hr
  rw [h2] at h1
  cases h1

end WTM
