import Mathlib.Tactic
import Verif.Model.RColloc
import Verif.Props.Colloc

/-! Property C154: collocation of the ion-exchange web application. -/
set_option autoImplicit false
namespace WTM
open Polynomial BigOperators

/-- The three vectors hold, up to place `k + 1`, the products the package computes with the first `k` differences. -/
def RBuf.Holds (b : RBuf) (delta : List ℝ) (k : ℕ) : Prop :=
  ∀ j ≤ k, b.p1 (j + 1) = some ((delta.take j).foldl recur (1, 0, 0)).1 ∧
    b.p2 (j + 1) = some ((delta.take j).foldl recur (1, 0, 0)).2.1 ∧
    b.p3 (j + 1) = some ((delta.take j).foldl recur (1, 0, 0)).2.2

theorem rBufStep_holds {b : RBuf} {delta : List ℝ} {k : ℕ} (hb : b.Holds delta k) (hk : k < delta.length) :
    (rBufStep delta b (k + 1)).Holds delta (k + 1) := by
  intro j hj
  have hd : delta[k + 1 - 1]? = some delta[k] := by simp
  rcases Nat.lt_or_ge j (k + 1) with h | h
  · obtain ⟨h1, h2, h3⟩ := hb j (by omega)
    have e : j + 1 ≠ k + 1 + 1 := by omega
    unfold rBufStep
    simp only [if_neg e]
    exact ⟨h1, h2, h3⟩
  · obtain rfl : j = k + 1 := by omega
    obtain ⟨h1, h2, h3⟩ := hb k le_rfl
    have e : k + 1 ≠ k + 1 + 1 := by omega
    unfold rBufStep
    simp only [hd, if_true, if_neg e, h1, h2, h3]
    rw [List.take_succ_eq_append_getElem hk, List.foldl_append]
    exact ⟨rfl, rfl, rfl⟩

theorem rBufRoot_holds {b : RBuf} {roots : List ℝ} {xi : ℝ} (hn : roots.Nodup) (hx : xi ∈ roots)
    (h0 : b.Holds [] 0) : (rBufRoot roots xi b).Holds ((roots.filter fun r => decide (r ≠ xi)).map fun r => xi - r)
      (roots.length - 1) := by
  have hlen : ((roots.filter fun r => decide (r ≠ xi)).map fun r => xi - r).length = roots.length - 1 := by
    rw [List.length_map]
    have : roots.filter (fun r => decide (r ≠ xi)) = roots.erase xi := by
      rw [hn.erase_eq_filter]
      congr 1
      funext r
      by_cases h : r = xi <;> simp [h]
    rw [this, List.length_erase_of_mem hx]
  unfold rBufRoot
  simp only
  generalize (roots.filter fun r => decide (r ≠ xi)).map (fun r => xi - r) = delta at hlen
  have : ∀ k, k ≤ delta.length → ((List.range k).foldl (fun b k => rBufStep delta b (k + 1)) b).Holds delta k := by
    intro k
    induction k with
    | zero =>
      intro _ j hj
      obtain rfl : j = 0 := by omega
      have := h0 0 le_rfl
      simpa using this
    | succ k ih =>
      intro hk
      rw [List.range_succ, List.foldl_append]
      exact rBufStep_holds (ih (by omega)) (by omega)
  exact this _ hlen.ge

theorem px_foldl (xi : ℝ) (roots : List ℝ) :
    pxColumn xi roots = ((roots.filter fun r => decide (r ≠ xi)).map fun r => xi - r).foldl recur (1, 0, 0) := by
  unfold pxColumn
  rw [List.foldl_map]
  congr 2
  funext r
  simp [sub_eq_zero]

/-- The table of derivatives is that of the package. -/
theorem rDerivs_eq {roots : List ℝ} (hn : roots.Nodup) (h2 : 2 ≤ roots.length) :
    rDerivs roots = .ok (roots.map fun xi => (some (pxColumn xi roots).1, some (pxColumn xi roots).2.1,
      some (pxColumn xi roots).2.2)) := by
  unfold rDerivs
  rw [if_neg (by omega)]
  simp only [Except.ok.injEq]
  have key : ∀ (l : List ℝ) (acc : List (Option ℝ × Option ℝ × Option ℝ)) (b : RBuf), (∀ x ∈ l, x ∈ roots) →
      b.Holds [] 0 → (l.foldl (fun (s : List (Option ℝ × Option ℝ × Option ℝ) × RBuf) xi =>
        (s.1 ++ [((rBufRoot roots xi s.2).p1 roots.length, (rBufRoot roots xi s.2).p2 roots.length,
          (rBufRoot roots xi s.2).p3 roots.length)], rBufRoot roots xi s.2)) (acc, b)).1 =
      acc ++ l.map fun xi => (some (pxColumn xi roots).1, some (pxColumn xi roots).2.1, some (pxColumn xi roots).2.2) := by
    intro l
    induction l with
    | nil => intro acc b _ _; simp
    | cons x l ih =>
      intro acc b hl hb
      rw [List.foldl_cons]
      have hh := rBufRoot_holds hn (hl x List.mem_cons_self) hb
      rw [ih _ _ (fun y hy => hl y (List.mem_cons_of_mem _ hy))]
      · have h := hh (roots.length - 1) le_rfl
        have e : roots.length - 1 + 1 = roots.length := by omega
        rw [e] at h
        obtain ⟨h1, h2, h3⟩ := h
        rw [List.take_of_length_le, ← px_foldl] at h1 h2 h3
        · simp only [h1, h2, h3, List.map_cons, List.append_assoc, List.singleton_append]
        all_goals
          rw [List.length_map]
          have hlt : (roots.filter fun r => decide (r ≠ x)).length < roots.length :=
            List.length_filter_lt_length_iff_exists.2 ⟨x, hl x List.mem_cons_self, by simp⟩
          omega
      · intro j hj
        obtain rfl : j = 0 := by omega
        have := hh 0 (by omega)
        simpa using this
  have := key roots [] (rBuf0 roots.length) (fun x h => h) (by
    intro j hj
    obtain rfl : j = 0 := by omega
    have : 1 ≤ roots.length := by omega
    simp [rBuf0, this])
  simpa using this

theorem rDer_eq {n : ℕ} {x : Fin n → ℝ} (hx : Function.Injective x) (hn : 2 ≤ n) (i : Fin n) :
    rDer x i = (some (px x i).1, some (px x i).2.1, some (px x i).2.2) := by
  unfold rDer
  rw [rDerivs_eq (List.nodup_ofFn.2 hx) (by simpa using hn)]
  simp [px]

theorem rA_eq {n : ℕ} {x : Fin n → ℝ} (hx : Function.Injective x) (hn : 2 ≤ n) (i j : Fin n) :
    rA x i j = some (aMat x i j) := by
  unfold rA aMat
  simp only [rDer_eq hx hn]
  by_cases h : i = j
  · rw [if_pos h, if_pos h]; rfl
  · rw [if_neg h, if_neg h]; rfl

theorem rB_eq {n : ℕ} {x : Fin n → ℝ} (hx : Function.Injective x) (hn : 2 ≤ n) (i j : Fin n) :
    rB x i j = some (bMat x i j) := by
  unfold rB bMat
  simp only [rDer_eq hx hn, rA_eq hx hn]
  by_cases h : i = j
  · rw [if_pos h, if_pos h]; rfl
  · rw [if_neg h, if_neg h]
    show some _ = some _
    congr 1
    unfold aMat
    rw [if_neg h, if_pos rfl]
    have h1 := px_ne hx i
    have h2 := px_ne hx j
    have h3 : x i - x j ≠ 0 := sub_ne_zero.2 fun e => h (hx e)
    field_simp

theorem rBsym_eq {n : ℕ} {u : Fin n → ℝ} (hu : Function.Injective u) (hn : 2 ≤ n) (i j : Fin n) :
    rBsym u i j = some (symmB 3 u i j) := by
  unfold rBsym symmB
  rw [rA_eq hu hn, rB_eq hu hn]
  show some _ = some _
  congr 1
  ring

theorem rMapM_some {α : Type} : ∀ (l : List (Option α)) (m : List α), l = m.map some → l.mapM id = some m
  | _, [], rfl => rfl
  | _, a :: m, rfl => by
    rw [List.map_cons, List.mapM_cons]
    have := rMapM_some _ m rfl
    simp [this]

theorem rW_eq {n : ℕ} {u : Fin n → ℝ} (hu : Function.Injective u) (hn : 2 ≤ n) (i : Fin n) :
    rW u i = some (symmW 3 u i) := by
  have hw : ∀ k, rWprime u k = some (1 / (u k * (px u k).1 ^ 2)) := by
    intro k; unfold rWprime; rw [rDer_eq hu hn]; rfl
  unfold rW symmW
  rw [rMapM_some _ (List.ofFn fun k => 1 / (u k * (px u k).1 ^ 2)) (by
    rw [List.map_ofFn]; congr 1; funext k; exact hw k), hw]
  show some _ = some _
  congr 1
  rw [List.sum_ofFn]
  ring

/-- C154: radial operator and weights of the application are those of the package for a sphere, whatever distinct nodes. -/
theorem c154_radial_same {n : ℕ} {u : Fin n → ℝ} (hu : Function.Injective u) (hn : 2 ≤ n) :
    rRadColloc u = .ok (fun i j => some (symmB 3 u i j), fun i => some (symmW 3 u i)) := by
  unfold rRadColloc
  rw [rDerivs_eq (List.nodup_ofFn.2 hu) (by simpa using hn)]
  show Except.ok (rBsym u, rW u) = Except.ok _
  rw [show rBsym u = fun i j => some (symmB 3 u i j) from funext fun i => funext fun j => rBsym_eq hu hn i j,
    show rW u = fun i => some (symmW 3 u i) from funext fun i => rW_eq hu hn i]

/-- C154: so is the axial operator. -/
theorem c154_axial_same {n : ℕ} {x : Fin n → ℝ} (hx : Function.Injective x) (hn : 2 ≤ n) :
    rAxColloc x = .ok fun i j => some (aMat x i j) := by
  unfold rAxColloc
  rw [rDerivs_eq (List.nodup_ofFn.2 hx) (by simpa using hn)]
  show Except.ok _ = Except.ok _
  congr 1
  funext i j; exact rA_eq hx hn i j

/-- C154. With the zeros of the polynomial asked for (orthogonal with `p = 2.5`, `q = 1.5`) and 1 as nodes, for `m` zeros: the
first result is `f'' + 2/r f'` at the nodes for every even polynomial of degree below `2(m+1)`, the second integrates
`r² f` over the sphere exactly for every even polynomial of degree up to `4m`. -/
theorem c154_radial {m : ℕ} (hm : 1 ≤ m) {jac : Fin m → ℝ} (hj : Spec.ShJacobiRoots m 2.5 1.5 jac) :
    ∃ (B : Fin (m + 1) → Fin (m + 1) → ℝ) (W : Fin (m + 1) → ℝ), rRadColloc (radialNodes jac) = .ok (fun i j => some (B i j), fun i => some (W i)) ∧
      (∀ f : ℝ[X], Spec.Even f → f.natDegree < 2 * (m + 1) → ∀ i,
        ∑ j, B i j * f.eval (Real.sqrt (radialNodes jac j)) =
          (derivative (derivative f)).eval (Real.sqrt (radialNodes jac i)) +
          2 / Real.sqrt (radialNodes jac i) * (derivative f).eval (Real.sqrt (radialNodes jac i))) ∧
      (∀ f : ℝ[X], Spec.Even f → f.natDegree ≤ 4 * m →
        ∑ i, W i * f.eval (Real.sqrt (radialNodes jac i)) = Spec.radialIntegral 3 f) := by
  have hinj : Function.Injective (radialNodes jac) := radialNodes_inj hj.1 fun i => (hj.2.1 i).2
  have hpos : ∀ i, 0 < radialNodes jac i := radialNodes_pos fun i => (hj.2.1 i).1
  refine ⟨_, _, c154_radial_same hinj (by omega), fun f he hf i => ?_, fun f he hf => ?_⟩
  · have := (c16_radial hinj hpos 3 he hf i).2.1
    rw [show (3 : ℝ) - 1 = 2 by norm_num] at this
    exact this
  · have hj' : Spec.ShJacobiRoots m (1.5 + (3 - 1) / 2) (1.5 + (3 - 1) / 2 - 1) jac := by
      rw [show (1.5 + (3 - 1) / 2 : ℝ) = 2.5 by norm_num, show (2.5 - 1 : ℝ) = 1.5 by norm_num]
      exact hj
    exact c17_exact (by norm_num) hj' he (by omega)

/-- C154. With 0, distinct interior zeros and 1 as nodes, the axial operator is the derivative at the nodes for every
polynomial of degree up to `m + 1`. -/
theorem c154_axial {m : ℕ} {leg : Fin m → ℝ} (hl : Function.Injective leg) (h01 : ∀ i, 0 < leg i ∧ leg i < 1) :
    ∃ A : Fin (m + 2) → Fin (m + 2) → ℝ, rAxColloc (axialNodes leg) = .ok (fun i j => some (A i j)) ∧
      ∀ f : ℝ[X], f.natDegree ≤ m + 1 → ∀ i,
        ∑ j, A i j * f.eval (axialNodes leg j) = (derivative f).eval (axialNodes leg i) := by
  have hinj := axialNodes_inj hl h01
  refine ⟨_, c154_axial_same hinj (by omega), fun f hf i => c14_first_derivative hinj f ?_ i⟩
  refine lt_of_le_of_lt degree_le_natDegree ?_
  exact_mod_cast (by omega : f.natDegree < m + 2)

/-- C154: a single radial point is an error. -/
theorem c154_single (u : Fin 1 → ℝ) : rRadColloc u = .error .valueError := by
  unfold rRadColloc rDerivs
  rw [if_pos (by simp)]
  rfl

/-- The zeros exist for every number of points. -/
example (m : ℕ) : ∃ jac : Fin m → ℝ, Spec.ShJacobiRoots m 2.5 1.5 jac := by
  obtain ⟨jac, h, -⟩ := c17_nodes_exist m (a := 3) (by norm_num)
  rw [show (1.5 + (3 - 1) / 2 : ℝ) = 2.5 by norm_num, show (2.5 - 1 : ℝ) = 1.5 by norm_num] at h
  exact ⟨jac, h⟩

end WTM
