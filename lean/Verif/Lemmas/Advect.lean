import Verif.Lemmas.Colloc

/-! Closed form of `advOp` and `advX`. -/
set_option autoImplicit false
namespace WTM
open Polynomial BigOperators

theorem ix1 (k M : ℕ) : k * (M + 1) - k = k * M := by rw [mul_add, mul_one, Nat.add_sub_cancel]
theorem ix2 (k M : ℕ) : (k + 1) * (M + 1) - k = (k + 1) * M + 1 := by
  have : (k + 1) * (M + 1) = (k + 1) * M + 1 + k := by ring
  omega
theorem ix3 (k M : ℕ) : (k + 2) * (M + 1) - (k + 1) = (k + 2) * M + 1 := by
  have : (k + 2) * (M + 1) = (k + 2) * M + 1 + (k + 1) := by ring
  omega

section
variable {NE M : ℕ} {Z A0 : ℕ → ℕ → ℝ}

/-- Rows that belong to a single block. -/
theorem advBlocks_row {i k : ℕ} (hk : k < NE) (h1 : k * M ≤ i ∧ i ≤ (k + 1) * M)
    (hu : ∀ k' < NE, k' * M ≤ i → i ≤ (k' + 1) * M → k' = k) (j : ℕ) :
    advBlocks NE (M + 1) Z i j =
      if k * M ≤ j ∧ j < k * M + (M + 1) then Z (i - k * M) (j - k * M) else 0 := by
  unfold advBlocks
  have key : ∀ n ≤ NE, (List.range n).foldl
      (fun A k => setBlock A (k * (M + 1) - k) ((k + 1) * (M + 1) - k) (k * (M + 1) - k)
        ((k + 1) * (M + 1) - k) Z) (fun _ _ => 0) i j =
      if k < n ∧ k * M ≤ j ∧ j < k * M + (M + 1) then Z (i - k * M) (j - k * M) else 0 := by
    intro n
    induction n with
    | zero => intro _; simp
    | succ n ih =>
      intro hn
      rw [List.range_succ, List.foldl_append]
      simp only [List.foldl_cons, List.foldl_nil]
      unfold setBlock at ih ⊢
      rw [ih (by omega), ix1, ix2]
      have hs : (n + 1) * M = n * M + M := by ring
      by_cases hnk : n = k
      · subst hnk
        by_cases hj : n * M ≤ j ∧ j < n * M + (M + 1)
        · rw [if_pos ⟨h1.1, by omega, hj.1, by omega⟩, if_pos ⟨by omega, hj⟩]
        · rw [if_neg (by rintro ⟨_, _, a, b⟩; exact hj ⟨a, by omega⟩),
            if_neg (by rintro ⟨a, _⟩; omega), if_neg (by rintro ⟨_, b⟩; exact hj b)]
      · rw [if_neg]
        · have : (k < n + 1) ↔ k < n := by omega
          simp only [this]
        · rintro ⟨a, b, -, -⟩
          exact hnk (hu n (by omega) a (by omega))
  rw [key NE le_rfl]
  simp [hk]

/-- Continuation points leave other rows alone. -/
theorem advCont_other {i : ℕ} {n : ℕ} (h : ∀ k < n, i ≠ (k + 1) * M) (A : ℕ → ℕ → ℝ) (j : ℕ) :
    (List.range n).foldl (advCont (M + 1) A0 Z) A i j = A i j := by
  induction n with
  | zero => rfl
  | succ n ih =>
    rw [List.range_succ, List.foldl_append]
    simp only [List.foldl_cons, List.foldl_nil]
    have hi := h n (by omega)
    rw [advCont]
    simp only [ix1, ix3, setBlock, zeroRow]
    rw [if_neg (by omega), if_neg (by omega), if_neg hi]
    exact ih (fun k hk => h k (by omega))

/-- The continuation row `k`. -/
theorem advCont_row (hM : 0 < M) {k n : ℕ} (hk : k < n) (A : ℕ → ℕ → ℝ) (j : ℕ) :
    (List.range n).foldl (advCont (M + 1) A0 Z) A ((k + 1) * M) j =
      if k * M ≤ j ∧ j < (k + 1) * M then
        Z M (j - k * M) - Z M M / (A0 M M - A0 0 0) * A0 M (j - k * M)
      else if (k + 1) * M + 1 ≤ j ∧ j < (k + 2) * M + 1 then
        Z M M / (A0 M M - A0 0 0) * A0 0 (j - ((k + 1) * M + 1) + 1)
      else 0 := by
  induction n with
  | zero => omega
  | succ n ih =>
    rw [List.range_succ, List.foldl_append]
    simp only [List.foldl_cons, List.foldl_nil]
    rw [advCont]
    simp only [ix1, ix3, setBlock, zeroRow, Nat.add_sub_cancel]
    by_cases hnk : n = k
    · subst hnk
      by_cases h2 : (n + 1) * M + 1 ≤ j ∧ j < (n + 2) * M + 1
      · rw [if_pos ⟨le_rfl, by omega, h2⟩, if_neg (by omega), if_pos h2]
      · rw [if_neg (by rintro ⟨_, _, a⟩; exact h2 a), if_neg h2]
        by_cases h1 : n * M ≤ j ∧ j < (n + 1) * M
        · rw [if_pos ⟨le_rfl, by omega, h1⟩, if_pos h1]
        · rw [if_neg (by rintro ⟨_, _, a⟩; exact h1 a), if_neg h1, if_pos rfl]
    · have hne : (k + 1) * M ≠ (n + 1) * M := by
        intro h
        have := Nat.eq_of_mul_eq_mul_right hM h
        omega
      rw [if_neg (by omega), if_neg (by omega), if_neg hne]
      exact ih (by omega)

end

/-- Sum over a window of indices. -/
theorem sum_window (N s L : ℕ) (h : s + L ≤ N) (g F : ℕ → ℝ) :
    ∑ j ∈ Finset.range N, (if s ≤ j ∧ j < s + L then g (j - s) else 0) * F j =
      ∑ m ∈ Finset.range L, g m * F (s + m) := by
  simp only [ite_mul, zero_mul]
  rw [← Finset.sum_filter]
  have : (Finset.range N).filter (fun j => s ≤ j ∧ j < s + L) = Finset.Ico s (s + L) := by
    ext j; simp only [Finset.mem_filter, Finset.mem_range, Finset.mem_Ico]; omega
  rw [this, Finset.sum_Ico_eq_sum_range]
  simp

/-! ### Grid -/

/-- Grid after `n` elements, element width `1/F`. -/
noncomputable def gridUpTo (F : ℝ) (xs : List ℝ) (n : ℕ) : List ℝ :=
  npDelete ((List.range n).flatMap (fun k : ℕ => xs.map (fun r => r / F + (k : ℝ) / F)))
    ((List.range (n - 1)).map (fun k => xs.length * (k + 1)))

theorem flat_length {F : ℝ} {xs : List ℝ} (n : ℕ) :
    ((List.range n).flatMap (fun k : ℕ => xs.map (fun r => r / F + (k : ℝ) / F))).length = n * xs.length := by
  induction n with
  | zero => simp
  | succ n ih => rw [List.range_succ, List.flatMap_append, List.length_append, ih]; simp; ring

theorem gridUpTo_one (F : ℝ) (xs : List ℝ) : gridUpTo F xs 1 = xs.map (fun r => r / F) := by
  unfold gridUpTo npDelete
  have h0 : List.range 1 = [0] := rfl
  simp [h0]

theorem gridUpTo_succ (F : ℝ) (r0 : ℝ) (rs : List ℝ) (n : ℕ) (hn : 1 ≤ n) :
    gridUpTo F (r0 :: rs) (n + 1) =
      gridUpTo F (r0 :: rs) n ++ rs.map (fun r => r / F + (n : ℝ) / F) := by
  unfold gridUpTo npDelete
  rw [List.range_succ, List.flatMap_append, List.zipIdx_append, List.filter_append, List.map_append]
  congr 1
  · congr 1
    apply List.filter_congr
    rintro ⟨v, idx⟩ hmem
    have hlt := List.snd_lt_of_mem_zipIdx hmem
    rw [flat_length] at hlt
    simp only [Nat.add_sub_cancel, List.mem_map, List.mem_range, decide_eq_decide, zero_add] at hlt ⊢
    constructor
    · rintro h ⟨k, hk, e⟩; exact h ⟨k, by omega, e⟩
    · rintro h ⟨k, hk, e⟩
      by_cases hkn : k < n - 1
      · exact h ⟨k, hkn, e⟩
      · have : k = n - 1 := by omega
        subst this
        rw [show n - 1 + 1 = n by omega, mul_comm] at e
        omega
  · rw [flat_length]
    simp only [List.flatMap_cons, List.flatMap_nil, List.append_nil, List.map_cons, List.zipIdx_cons,
      List.filter_cons]
    have hdel : (0 + n * (r0 :: rs).length) ∈
        (List.range (n + 1 - 1)).map (fun k => (r0 :: rs).length * (k + 1)) := by
      rw [List.mem_map]
      refine ⟨n - 1, by rw [List.mem_range]; omega, ?_⟩
      rw [show n - 1 + 1 = n by omega]; ring
    rw [if_neg (by simpa using hdel)]
    have hall : (((rs.map (fun r => r / F + (n : ℝ) / F)).zipIdx (0 + n * (r0 :: rs).length + 1)).filter
        (fun p => decide (p.2 ∉ (List.range (n + 1 - 1)).map (fun k => (r0 :: rs).length * (k + 1))))) =
        (rs.map (fun r => r / F + (n : ℝ) / F)).zipIdx (0 + n * (r0 :: rs).length + 1) := by
      rw [List.filter_eq_self]
      rintro ⟨v, idx⟩ hmem
      have h1 := List.le_snd_of_mem_zipIdx hmem
      have h2 := List.snd_lt_of_mem_zipIdx hmem
      simp only [List.length_map, List.length_cons] at h1 h2
      simp only [decide_eq_true_eq, List.mem_map, List.mem_range, List.length_cons]
      rintro ⟨k, hk, e⟩
      have h3 : k + 1 ≤ n := by omega
      have h4 : (rs.length + 1) * (k + 1) ≤ (rs.length + 1) * n := Nat.mul_le_mul_left _ h3
      have h5 : (rs.length + 1) * n = n * (rs.length + 1) := mul_comm _ _
      omega
    rw [hall, List.zipIdx_map_fst]

theorem gridUpTo_length (F : ℝ) (r0 : ℝ) (rs : List ℝ) (n : ℕ) (hn : 1 ≤ n) :
    (gridUpTo F (r0 :: rs) n).length = n * rs.length + 1 := by
  induction n, hn using Nat.le_induction with
  | base => rw [gridUpTo_one]; simp
  | succ n hn ih => rw [gridUpTo_succ _ _ _ _ hn, List.length_append, ih]; simp; ring

/-- Position of grid point `m` of element `k`. -/
theorem gridUpTo_get (F : ℝ) {M : ℕ} (hM : 0 < M) (x : Fin (M + 1) → ℝ) (h0 : x 0 = 0)
    (h1 : x (Fin.last M) = 1) (n : ℕ) (hn : 1 ≤ n) :
    ∀ (k : ℕ) (m : Fin (M + 1)), k < n →
      (gridUpTo F (List.ofFn x) n)[k * M + (m : ℕ)]? = some (x m / F + (k : ℝ) / F) := by
  have hcons : List.ofFn x = x 0 :: List.ofFn (fun i : Fin M => x i.succ) := List.ofFn_succ
  induction n, hn using Nat.le_induction with
  | base =>
    intro k m hk
    have : k = 0 := by omega
    subst this
    rw [gridUpTo_one, zero_mul, zero_add, List.getElem?_map, List.getElem?_ofFn]
    simp [m.2]
  | succ n hn ih =>
    intro k m hk
    have hlen : (gridUpTo F (List.ofFn x) n).length = n * M + 1 := by
      rw [hcons, gridUpTo_length _ _ _ _ hn, List.length_ofFn]
    have hsucc : gridUpTo F (List.ofFn x) (n + 1) = gridUpTo F (List.ofFn x) n ++
        (List.ofFn (fun i : Fin M => x i.succ)).map (fun r => r / F + (n : ℝ) / F) := by
      rw [hcons, gridUpTo_succ _ _ _ _ hn]
    rw [hsucc]
    by_cases hkn : k < n
    · have hlt : k * M + (m : ℕ) < n * M + 1 := by
        have h2 : (k + 1) * M ≤ n * M := Nat.mul_le_mul_right _ hkn
        have h3 : (k + 1) * M = k * M + M := by ring
        have := m.2
        omega
      rw [List.getElem?_append_left (by rw [hlen]; exact hlt)]
      exact ih k m hkn
    · have : k = n := by omega
      subst this
      induction m using Fin.cases with
      | zero =>
        have hlt : k * M + ((0 : Fin (M + 1)) : ℕ) < k * M + 1 := by simp
        rw [List.getElem?_append_left (by rw [hlen]; exact hlt)]
        have e := ih (k - 1) (Fin.last M) (by omega)
        have e2 : (k - 1) * M + ((Fin.last M : Fin (M + 1)) : ℕ) = k * M + ((0 : Fin (M + 1)) : ℕ) := by
          obtain ⟨k', rfl⟩ : ∃ k', k = k' + 1 := ⟨k - 1, by omega⟩
          simp only [Nat.add_sub_cancel, Fin.val_last, Fin.val_zero]; ring
        rw [e2] at e
        rw [e, h1, h0, Nat.cast_sub hn]
        congr 1
        push_cast; ring
      | succ m =>
        rw [List.getElem?_append_right (by rw [hlen]; simp), hlen]
        have e2 : k * M + ((m.succ : Fin (M + 1)) : ℕ) - (k * M + 1) = (m : ℕ) := by
          simp only [Fin.val_succ]; omega
        rw [e2, List.getElem?_map, List.getElem?_ofFn]
        simp [m.2]

theorem gridUpTo_sorted {F : ℝ} (hF : 0 < F) {M : ℕ} (x : Fin (M + 1) → ℝ) (hx : StrictMono x)
    (h0 : x 0 = 0) (h1 : x (Fin.last M) = 1) (n : ℕ) (hn : 1 ≤ n) :
    (gridUpTo F (List.ofFn x) n).Pairwise (· < ·) ∧
      ∀ y ∈ gridUpTo F (List.ofFn x) n, y ≤ (n : ℝ) / F := by
  have hcons : List.ofFn x = x 0 :: List.ofFn (fun i : Fin M => x i.succ) := List.ofFn_succ
  have hle : ∀ m, x m ≤ 1 := fun m => h1 ▸ hx.monotone (Fin.le_last m)
  induction n, hn using Nat.le_induction with
  | base =>
    rw [gridUpTo_one]
    constructor
    · rw [List.pairwise_map, List.pairwise_ofFn]
      intro i j hij
      exact div_lt_div_of_pos_right (hx hij) hF
    · intro y hy
      obtain ⟨r, hr, rfl⟩ := List.mem_map.1 hy
      obtain ⟨m, rfl⟩ := List.mem_ofFn.1 hr
      push_cast
      exact div_le_div_of_nonneg_right (hle m) hF.le
  | succ n hn ih =>
    have hsucc : gridUpTo F (List.ofFn x) (n + 1) = gridUpTo F (List.ofFn x) n ++
        (List.ofFn (fun i : Fin M => x i.succ)).map (fun r => r / F + (n : ℝ) / F) := by
      rw [hcons, gridUpTo_succ _ _ _ _ hn]
    rw [hsucc]
    constructor
    · rw [List.pairwise_append]
      refine ⟨ih.1, ?_, ?_⟩
      · rw [List.pairwise_map, List.pairwise_ofFn]
        intro i j hij
        have := div_lt_div_of_pos_right (hx (Fin.succ_lt_succ_iff.2 hij)) hF
        linarith
      · intro y hy z hz
        obtain ⟨r, hr, rfl⟩ := List.mem_map.1 hz
        obtain ⟨m, rfl⟩ := List.mem_ofFn.1 hr
        have h2 : 0 < x m.succ := h0 ▸ hx (Fin.succ_pos m)
        have h3 := div_pos h2 hF
        have h4 := ih.2 y hy
        linarith
    · intro y hy
      rcases List.mem_append.1 hy with hy | hy
      · have h2 := ih.2 y hy
        have h3 : (n : ℝ) / F ≤ ((n + 1 : ℕ) : ℝ) / F :=
          div_le_div_of_nonneg_right (by push_cast; linarith) hF.le
        linarith
      · obtain ⟨r, hr, rfl⟩ := List.mem_map.1 hy
        obtain ⟨m, rfl⟩ := List.mem_ofFn.1 hr
        have h2 := div_le_div_of_nonneg_right (hle m.succ) hF.le
        push_cast
        rw [add_div]; linarith

end WTM
