import Mathlib.Algebra.Polynomial.Derivative
import Verif.Lemmas.Advect
import Verif.Props.Colloc

/-! Properties C19, C20: axial operator on finite elements. -/
set_option autoImplicit false
namespace WTM
open Polynomial BigOperators

/-- A square array read with natural number indices. -/
noncomputable def arr2 {n : ℕ} (A : Fin n → Fin n → ℝ) (i j : ℕ) : ℝ :=
  if h : i < n ∧ j < n then A ⟨i, h.1⟩ ⟨j, h.2⟩ else 0

theorem aMat_diag {n : ℕ} {x : Fin n → ℝ} (hx : Function.Injective x) (i : Fin n) :
    aMat x i i = ∑ j ∈ Finset.univ.erase i, (x i - x j)⁻¹ := by
  rw [aMat_eq hx, lag, Lagrange.basis, derivative_prod_finset, eval_finset_sum]
  apply Finset.sum_congr rfl
  intro j hj
  have hji := (Finset.mem_erase.1 hj).1
  rw [eval_mul, eval_prod, Finset.prod_eq_one, one_mul]
  · simp [Lagrange.basisDivisor]
  · intro k hk
    have hk' := (Finset.mem_erase.1 (Finset.mem_erase.1 hk).2).1
    exact Lagrange.eval_basisDivisor_left_of_ne (fun h => hk' (hx h).symm)

/-- The factor the code divides by at element boundaries is positive. -/
theorem adv_Q_pos {M : ℕ} (hM : 0 < M) {x : Fin (M + 1) → ℝ} (hx : StrictMono x) :
    0 < aMat x (Fin.last M) (Fin.last M) - aMat x 0 0 := by
  have hne : (0 : Fin (M + 1)) ≠ Fin.last M := by
    intro h; have := congrArg Fin.val h; simp at this; omega
  rw [aMat_diag hx.injective, aMat_diag hx.injective]
  have h1 : 0 < ∑ j ∈ Finset.univ.erase (Fin.last M), (x (Fin.last M) - x j)⁻¹ := by
    apply Finset.sum_pos
    · intro j hj
      have := (Finset.mem_erase.1 hj).1
      exact inv_pos.2 (sub_pos.2 (hx (lt_of_le_of_ne (Fin.le_last j) this)))
    · exact ⟨0, by simp [hne]⟩
  have h2 : ∑ j ∈ Finset.univ.erase (0 : Fin (M + 1)), (x 0 - x j)⁻¹ < 0 := by
    apply Finset.sum_neg
    · intro j hj
      have := (Finset.mem_erase.1 hj).1
      exact inv_lt_zero.2 (sub_neg.2 (hx (Fin.pos_of_ne_zero this)))
    · exact ⟨Fin.last M, by simp [hne.symm]⟩
  linarith

section
variable {NE M : ℕ} {x : Fin (M + 1) → ℝ}

/-- Grid position number `i`. -/
noncomputable def gridPt (NE M : ℕ) (x : Fin (M + 1) → ℝ) (i : ℕ) : ℝ :=
  (advX NE (M + 1) (List.ofFn x)).getD i 0

theorem advX_eq (NE M : ℕ) (x : Fin (M + 1) → ℝ) :
    advX NE (M + 1) (List.ofFn x) = gridUpTo (NE : ℝ) (List.ofFn x) NE := by
  unfold advX gridUpTo
  rw [List.length_ofFn]

theorem gridPt_eq (hNE : 1 ≤ NE) (hM : 0 < M) (h0 : x 0 = 0) (h1 : x (Fin.last M) = 1)
    {k : ℕ} (hk : k < NE) (m : Fin (M + 1)) :
    gridPt NE M x (k * M + (m : ℕ)) = x m / (NE : ℝ) + (k : ℝ) / (NE : ℝ) := by
  unfold gridPt
  rw [advX_eq, List.getD_eq_getElem?_getD, gridUpTo_get _ hM x h0 h1 NE hNE k m hk]
  rfl

/-- Element-wise derivative of a polynomial through the element matrix. -/
theorem elem_deriv (hx : StrictMono x) (hNE : 1 ≤ NE) {f : ℝ[X]} (hf : f.degree < (M + 1 : ℕ)) (k : ℕ)
    (m : Fin (M + 1)) :
    ∑ j : Fin (M + 1), (NE : ℝ) * aMat x m j * f.eval (x j / (NE : ℝ) + (k : ℝ) / (NE : ℝ)) =
      (derivative f).eval (x m / (NE : ℝ) + (k : ℝ) / (NE : ℝ)) := by
  have hN : (NE : ℝ) ≠ 0 := by positivity
  set g : ℝ[X] := f.comp (C (NE : ℝ)⁻¹ * X + C ((k : ℝ) / NE)) with hg
  have hlin : (C (NE : ℝ)⁻¹ * X + C ((k : ℝ) / NE)).natDegree = 1 :=
    natDegree_linear (inv_ne_zero hN)
  have hgd : g.degree < ((M + 1 : ℕ) : WithBot ℕ) := by
    by_cases hf0 : f = 0
    · rw [hg, hf0]; simp only [zero_comp, degree_zero]; exact WithBot.bot_lt_coe _
    · apply lt_of_le_of_lt degree_le_natDegree
      rw [hg, natDegree_comp, hlin, mul_one]
      rw [degree_eq_natDegree hf0] at hf
      exact hf
  have hge : ∀ j, g.eval (x j) = f.eval (x j / (NE : ℝ) + (k : ℝ) / (NE : ℝ)) := by
    intro j
    rw [hg, eval_comp]
    congr 1
    simp; ring
  have h := aMat_apply hx.injective hgd m
  simp only [hge] at h
  have hd : (derivative g).eval (x m) =
      (derivative f).eval (x m / (NE : ℝ) + (k : ℝ) / (NE : ℝ)) * (NE : ℝ)⁻¹ := by
    have e : (NE : ℝ)⁻¹ * x m + (k : ℝ) / NE = x m / (NE : ℝ) + (k : ℝ) / (NE : ℝ) := by ring
    rw [hg, derivative_comp, eval_mul, eval_comp]
    simp only [derivative_add, derivative_mul, derivative_C, derivative_X, eval_add, eval_mul,
      eval_C, eval_X, zero_mul, zero_add, mul_one, add_zero, e]
    ring
  rw [hd] at h
  have e : ∑ j : Fin (M + 1), (NE : ℝ) * aMat x m j * f.eval (x j / (NE : ℝ) + (k : ℝ) / (NE : ℝ)) =
      (NE : ℝ) * ∑ j : Fin (M + 1), aMat x m j * f.eval (x j / (NE : ℝ) + (k : ℝ) / (NE : ℝ)) := by
    rw [Finset.mul_sum]; exact Finset.sum_congr rfl (fun j _ => by ring)
  rw [e, h]; field_simp

/-- C19. The operator differentiates exactly any function that is a polynomial of degree `< NP` on each
element with matching values and slopes where elements meet: at every grid point but the inlet
(element interiors, interfaces, outlet). `v` are the nodal values, `f k` the polynomial on element
`k`. -/
theorem c19_piecewise (hNE : 1 ≤ NE) (hM : 0 < M) (hx : StrictMono x) (h0 : x 0 = 0)
    (h1 : x (Fin.last M) = 1) (f : ℕ → ℝ[X]) (hf : ∀ k, (f k).degree < (M + 1 : ℕ))
    (v : ℕ → ℝ) (hv : ∀ k < NE, ∀ m ≤ M, v (k * M + m) = (f k).eval (gridPt NE M x (k * M + m)))
    (hd : ∀ k, k + 1 < NE → (derivative (f k)).eval (gridPt NE M x ((k + 1) * M)) =
      (derivative (f (k + 1))).eval (gridPt NE M x ((k + 1) * M)))
    {k m : ℕ} (hk : k < NE) (hm : m ≤ M) (hi : 0 < k * M + m) :
    ∑ j ∈ Finset.range (NE * M + 1), advOp NE (M + 1) (arr2 (aMat x)) (k * M + m) j * v j =
      (derivative (f k)).eval (gridPt NE M x (k * M + m)) := by
  set A0 := arr2 (aMat x) with hA0
  have hA : ∀ i j : Fin (M + 1), A0 (i : ℕ) (j : ℕ) = aMat x i j := by
    intro i j; rw [hA0, arr2, dif_pos ⟨i.2, j.2⟩]
  -- element sums over natural number indices
  have elem : ∀ k' < NE, ∀ m' : ℕ, m' ≤ M →
      ∑ j ∈ Finset.range (M + 1), (NE : ℝ) * A0 m' j * v (k' * M + j) =
        (derivative (f k')).eval (gridPt NE M x (k' * M + m')) := by
    intro k' hk' m' hm'
    rw [Finset.sum_range]
    have e := elem_deriv hx hNE (hf k') k' ⟨m', by omega⟩
    rw [← gridPt_eq hNE hM h0 h1 hk' ⟨m', by omega⟩] at e
    rw [← e]
    apply Finset.sum_congr rfl
    intro j _
    rw [hv k' hk' j (by have := j.2; omega), gridPt_eq hNE hM h0 h1 hk' j,
      show A0 m' (j : ℕ) = aMat x ⟨m', by omega⟩ j from hA ⟨m', by omega⟩ j]
  have hkM : ∀ k', (k' + 1) * M = k' * M + M := fun k' => by ring
  have hmono : ∀ {p q : ℕ}, p ≤ q → p * M ≤ q * M := fun h => Nat.mul_le_mul_right M h
  -- rows that are not interfaces
  have plain : ∀ k' < NE, ∀ m' ≤ M, 0 < k' * M + m' →
      (∀ k'' < NE - 1, k' * M + m' ≠ (k'' + 1) * M) →
      ∑ j ∈ Finset.range (NE * M + 1), advOp NE (M + 1) A0 (k' * M + m') j * v j =
        (derivative (f k')).eval (gridPt NE M x (k' * M + m')) := by
    intro k' hk' m' hm' hi' hno
    rw [← elem k' hk' m' hm']
    have huniq : ∀ k'' < NE, k'' * M ≤ k' * M + m' → k' * M + m' ≤ (k'' + 1) * M → k'' = k' := by
      intro k'' hk'' ha hb
      by_contra hne
      rcases Nat.lt_or_ge k'' k' with hlt | hge
      · have := hmono (show k'' + 1 ≤ k' by omega)
        have : k' * M + m' = (k'' + 1) * M := by omega
        exact hno k'' (by omega) this
      · have hgt : k' + 1 ≤ k'' := by omega
        have h3 := hmono hgt
        rw [hkM] at h3
        have h4 : k' * M + m' = k'' * M := by omega
        obtain ⟨c, rfl⟩ : ∃ c, k'' = c + 1 := ⟨k'' - 1, by omega⟩
        exact hno c (by omega) h4
    have hrow : ∀ j, advOp NE (M + 1) A0 (k' * M + m') j =
        if k' * M ≤ j ∧ j < k' * M + (M + 1) then (NE : ℝ) * A0 m' (j - k' * M) else 0 := by
      intro j
      unfold advOp
      simp only [zeroRow]
      rw [if_neg (by omega), advCont_other hno]
      rw [advBlocks_row hk' ⟨by omega, by rw [hkM]; omega⟩ huniq]
      simp
    simp only [hrow]
    have hle := hmono (show k' + 1 ≤ NE by omega)
    rw [hkM] at hle
    exact sum_window (NE * M + 1) (k' * M) (M + 1) (by omega) (fun c => (NE : ℝ) * A0 m' c) v
  -- interface rows
  have iface : ∀ k', k' + 1 < NE →
      ∑ j ∈ Finset.range (NE * M + 1), advOp NE (M + 1) A0 ((k' + 1) * M) j * v j =
        (derivative (f k')).eval (gridPt NE M x ((k' + 1) * M)) := by
    intro k' hk'
    have e1 := elem k' (by omega) M le_rfl
    have e2 := elem (k' + 1) hk' 0 (by omega)
    rw [← hkM] at e1
    rw [add_zero, ← hd k' hk', Finset.sum_range_succ'] at e2
    rw [Finset.sum_range_succ] at e1
    have hQ : A0 M M - A0 0 0 ≠ 0 := by
      have := (adv_Q_pos hM hx).ne'
      rw [← hA, ← hA] at this
      simpa using this
    have hpos : 0 < (k' + 1) * M := Nat.mul_pos (by omega) hM
    have hrow : ∀ j, advOp NE (M + 1) A0 ((k' + 1) * M) j =
        (if k' * M ≤ j ∧ j < k' * M + M then
          (fun c => (NE : ℝ) * A0 M c - (NE : ℝ) * A0 M M / (A0 M M - A0 0 0) * A0 M c) (j - k' * M) else 0) +
        (if (k' + 1) * M + 1 ≤ j ∧ j < (k' + 1) * M + 1 + M then
          (fun c => (NE : ℝ) * A0 M M / (A0 M M - A0 0 0) * A0 0 (c + 1)) (j - ((k' + 1) * M + 1)) else 0) := by
      intro j
      unfold advOp
      simp only [zeroRow]
      rw [if_neg (by omega), advCont_row hM (by omega : k' < NE - 1)]
      have q1 := hkM k'
      have q2 : (k' + 2) * M = (k' + 1) * M + M := by ring
      by_cases c1 : k' * M ≤ j ∧ j < (k' + 1) * M
      · rw [if_pos c1, if_pos ⟨c1.1, by omega⟩, if_neg (by omega), add_zero]
      · rw [if_neg c1, if_neg (show ¬ (k' * M ≤ j ∧ j < k' * M + M) by omega), zero_add]
        by_cases c2 : (k' + 1) * M + 1 ≤ j ∧ j < (k' + 2) * M + 1
        · rw [if_pos c2, if_pos ⟨c2.1, by omega⟩]
        · rw [if_neg c2, if_neg (by omega)]
    rw [Finset.sum_congr rfl (fun j _ => by rw [hrow j, add_mul]), Finset.sum_add_distrib]
    have q1 := hkM k'
    have q2 : (k' + 2) * M = (k' + 1) * M + M := by ring
    have hle := hmono (show k' + 2 ≤ NE by omega)
    rw [sum_window (NE * M + 1) (k' * M) M (by omega)
        (fun c => (NE : ℝ) * A0 M c - (NE : ℝ) * A0 M M / (A0 M M - A0 0 0) * A0 M c) v,
      sum_window (NE * M + 1) ((k' + 1) * M + 1) M (by omega)
        (fun c => (NE : ℝ) * A0 M M / (A0 M M - A0 0 0) * A0 0 (c + 1)) v]
    have s1 : ∑ c ∈ Finset.range M, ((NE : ℝ) * A0 M c - (NE : ℝ) * A0 M M / (A0 M M - A0 0 0) * A0 M c) *
        v (k' * M + c) = (1 - A0 M M / (A0 M M - A0 0 0)) *
          ∑ c ∈ Finset.range M, (NE : ℝ) * A0 M c * v (k' * M + c) := by
      rw [Finset.mul_sum]
      exact Finset.sum_congr rfl (fun c _ => by ring)
    have s2 : ∑ c ∈ Finset.range M, ((NE : ℝ) * A0 M M / (A0 M M - A0 0 0) * A0 0 (c + 1)) *
        v ((k' + 1) * M + 1 + c) = (A0 M M / (A0 M M - A0 0 0)) *
          ∑ c ∈ Finset.range M, (NE : ℝ) * A0 0 (c + 1) * v ((k' + 1) * M + (c + 1)) := by
      rw [Finset.mul_sum]
      refine Finset.sum_congr rfl (fun c _ => ?_)
      rw [show (k' + 1) * M + 1 + c = (k' + 1) * M + (c + 1) by ring]; ring
    simp only [s1, s2]
    have t1 := eq_sub_of_add_eq e1
    have t2 := eq_sub_of_add_eq e2
    rw [t1, t2, add_zero, ← hkM]
    field_simp
    ring
  -- dispatch
  by_cases hno : ∀ k'' < NE - 1, k * M + m ≠ (k'' + 1) * M
  · exact plain k hk m hm hi hno
  · push Not at hno
    obtain ⟨c, hc, e⟩ := hno
    rw [e, iface c (by omega)]
    have hcM := hkM c
    -- the interface is either the right end of element `k` or its left end
    have : k = c ∨ k = c + 1 := by
      rcases Nat.lt_or_ge k c with h | h
      · have := hmono (show k + 1 ≤ c by omega)
        rw [hkM] at this; omega
      · rcases Nat.lt_or_ge (c + 1) k with h2 | h2
        · have := hmono (show c + 2 ≤ k by omega)
          have e3 : (c + 2) * M = (c + 1) * M + M := by ring
          omega
        · omega
    rcases this with rfl | rfl
    · rfl
    · exact hd c (by omega)

/-- C19. Exactness on polynomials: every row but the inlet differentiates every polynomial of degree
`< NP = M+1`. -/
theorem c19_polynomials (hNE : 1 ≤ NE) (hM : 0 < M) (hx : StrictMono x) (h0 : x 0 = 0)
    (h1 : x (Fin.last M) = 1) (f : ℝ[X]) (hf : f.degree < (M + 1 : ℕ))
    {i : ℕ} (hi : 0 < i) (hi2 : i < NE * M + 1) :
    ∑ j ∈ Finset.range (NE * M + 1),
        advOp NE (M + 1) (arr2 (aMat x)) i j * f.eval (gridPt NE M x j) =
      (derivative f).eval (gridPt NE M x i) := by
  obtain ⟨k, m, hk, hm, rfl⟩ : ∃ k m, k < NE ∧ m ≤ M ∧ i = k * M + m := by
    rcases Nat.lt_or_ge i (NE * M) with h | h
    · refine ⟨i / M, i % M, ?_, (Nat.mod_lt _ hM).le, ?_⟩
      · exact (Nat.div_lt_iff_lt_mul hM).2 h
      · rw [mul_comm]; exact (Nat.div_add_mod i M).symm
    · refine ⟨NE - 1, M, by omega, le_rfl, ?_⟩
      obtain ⟨n, rfl⟩ : ∃ n, NE = n + 1 := ⟨NE - 1, by omega⟩
      rw [Nat.add_sub_cancel]
      have : (n + 1) * M = n * M + M := by ring
      omega
  exact c19_piecewise hNE hM hx h0 h1 (fun _ => f) (fun _ => hf) _ (fun _ _ _ _ => rfl)
    (fun _ _ => rfl) hk hm hi

/-- C19. The inlet row is identically zero. -/
theorem c19_inlet (NE NP : ℕ) (A0 : ℕ → ℕ → ℝ) (j : ℕ) : advOp NE NP A0 0 j = 0 := by
  simp [advOp, zeroRow]

/-- C19. Constants are mapped to zero, in every row. -/
theorem c19_constants (hNE : 1 ≤ NE) (hM : 0 < M) (hx : StrictMono x) (h0 : x 0 = 0)
    (h1 : x (Fin.last M) = 1) {i : ℕ} (hi : i < NE * M + 1) :
    ∑ j ∈ Finset.range (NE * M + 1), advOp NE (M + 1) (arr2 (aMat x)) i j = 0 := by
  rcases Nat.eq_zero_or_pos i with rfl | hp
  · simp [c19_inlet]
  · have := c19_polynomials hNE hM hx h0 h1 (1 : ℝ[X]) (by
      rw [degree_one]; exact_mod_cast Nat.succ_pos M) hp hi
    simpa using this

/-- C19. The grid has `NE*NP-(NE-1)` points, strictly increasing from 0 to 1. -/
theorem c19_grid (hNE : 1 ≤ NE) (hM : 0 < M) (hx : StrictMono x) (h0 : x 0 = 0)
    (h1 : x (Fin.last M) = 1) :
    let X := advX NE (M + 1) (List.ofFn x)
    ((X.length : ℕ) : ℤ) = advNZ NE (M + 1) ∧ X.length = NE * M + 1 ∧
    X.Pairwise (· < ·) ∧ X.head? = some 0 ∧ X.getLast? = some 1 := by
  have hN : (0 : ℝ) < NE := by exact_mod_cast hNE
  have hcons : List.ofFn x = x 0 :: List.ofFn (fun i : Fin M => x i.succ) := List.ofFn_succ
  have hlen : (advX NE (M + 1) (List.ofFn x)).length = NE * M + 1 := by
    rw [advX_eq, hcons, gridUpTo_length _ _ _ _ hNE, List.length_ofFn]
  refine ⟨?_, hlen, ?_, ?_, ?_⟩
  · rw [hlen, advNZ]; push_cast; ring
  · rw [advX_eq]; exact (gridUpTo_sorted hN x hx h0 h1 NE hNE).1
  · have := gridUpTo_get (NE : ℝ) hM x h0 h1 NE hNE 0 0 (by omega)
    rw [List.head?_eq_getElem?, advX_eq]
    simpa [h0] using this
  · have := gridUpTo_get (NE : ℝ) hM x h0 h1 NE hNE (NE - 1) (Fin.last M) (by omega)
    rw [List.getLast?_eq_getElem?, hlen, advX_eq]
    have e : NE * M + 1 - 1 = (NE - 1) * M + ((Fin.last M : Fin (M + 1)) : ℕ) := by
      obtain ⟨n, rfl⟩ : ∃ n, NE = n + 1 := ⟨NE - 1, by omega⟩
      simp only [Nat.add_sub_cancel, Fin.val_last]; ring
    rw [e, this, h1, Nat.cast_sub hNE]
    congr 1
    push_cast
    field_simp
    ring

end

/-- The nodes used in OCFE mode (3 points: 0, 1/2, 1) meet the hypotheses. -/
example : ∃ x : Fin (2 + 1) → ℝ, x = axialNodes ![(1 / 2 : ℝ)] ∧ StrictMono x ∧ x 0 = 0 ∧
    x (Fin.last 2) = 1 := by
  have e : axialNodes ![(1 / 2 : ℝ)] = ![0, 1 / 2, 1] := by
    funext i; fin_cases i <;> rfl
  refine ⟨_, rfl, ?_, rfl, ?_⟩
  · rw [e, Fin.strictMono_iff_lt_succ]
    intro i
    fin_cases i <;> simp <;> norm_num
  · rw [e]; rfl

/-! ### C20 -/

/-- C20. In element mode the operator has as many points as the state iff `nz` is odd; for even `nz` it
has one fewer. -/
theorem c20_ocfe_size (nz : ℕ) (hnz : 1 ≤ nz) :
    (advNZ (ocfeNE nz) 3 = nz ↔ nz % 2 = 1) ∧
    (nz % 2 = 0 → advNZ (ocfeNE nz) 3 = nz - 1) := by
  unfold advNZ ocfeNE
  omega

end WTM
