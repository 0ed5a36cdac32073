import Verif.Props.IexBead
import Verif.Lemmas.Kernel

/-! Properties C205-C208: what the discretised bead dissipates, and which states of the ion exchange models
stand still. -/
set_option autoImplicit false
namespace WTM
open BigOperators

variable {r p z : ℕ}

/-- Specification of the radial grid of a sphere: Jacobi zeros of the documentation of `roots_sh_jacobi(r, 2.5, 1.5)`,
with `B` and `W` the operators of `recur_colloc_symm` on them. -/
structure Spec.BeadGrid (jac : Fin r → ℝ) (B : Fin (r + 1) → Fin (r + 1) → ℝ) (W : Fin (r + 1) → ℝ) : Prop where
  zeros : Spec.ShJacobiRoots r 2.5 1.5 jac
  lap : B = symmB 3 (radialNodes jac)
  weights : W = symmW 3 (radialNodes jac)

/-- The radial gradient of a profile at the nodes. -/
noncomputable def Spec.grad (jac : Fin r → ℝ) (q : Fin (r + 1) → ℝ) (k : Fin (r + 1)) : ℝ :=
  ∑ l, symmA (radialNodes jac) k l * q l

/-- Specification: the squared gradient of a profile, integrated over the bead by the quadrature. -/
noncomputable def Spec.roughness (jac : Fin r → ℝ) (W : Fin (r + 1) → ℝ) (q : Fin (r + 1) → ℝ) : ℝ :=
  ∑ k, W k * Spec.grad jac q k ^ 2

/-- Such grids exist for every number of nodes. -/
theorem beadGrid_exists (r : ℕ) : ∃ (jac : Fin r → ℝ) (B : Fin (r + 1) → Fin (r + 1) → ℝ) (W : Fin (r + 1) → ℝ),
    Spec.BeadGrid jac B W := by
  obtain ⟨jac, h, -⟩ := c17_nodes_exist r (a := 3) (by norm_num)
  refine ⟨jac, _, _, ?_, rfl, rfl⟩
  have e1 : (1.5 + (3 - 1) / 2 : ℝ) = 2.5 := by norm_num
  have e2 : (1.5 + (3 - 1) / 2 - 1 : ℝ) = 1.5 := by norm_num
  rwa [e2, e1] at h

section
variable {jac : Fin r → ℝ} {B : Fin (r + 1) → Fin (r + 1) → ℝ} {W : Fin (r + 1) → ℝ}

theorem Spec.BeadGrid.wpos (g : Spec.BeadGrid jac B W) (k : Fin (r + 1)) : 0 < W k := by
  rw [g.weights]
  exact (c17_positive_sum (Nat.succ_pos r) (radialNodes_inj g.zeros.1 (fun i => (g.zeros.2.1 i).2))
    (radialNodes_pos (fun i => (g.zeros.2.1 i).1)) (by norm_num : (0:ℝ) < 3)).1 k

theorem Spec.BeadGrid.rows (g : Spec.BeadGrid jac B W) (k : Fin (r + 1)) : ∑ l, B k l = 0 := by
  rw [g.lap]
  exact br_rows (radialNodes_inj g.zeros.1 (fun i => (g.zeros.2.1 i).2))
    (radialNodes_pos (fun i => (g.zeros.2.1 i).1)) 3 k

/-! ### C205 -/

/-- C205. Summation by parts: for any two profiles the radial operator, weighted by one of them over the bead, is the
gradient at the surface less the product of the gradients over the bead. -/
theorem c205_parts (g : Spec.BeadGrid jac B W) (s q : Fin (r + 1) → ℝ) :
    ∑ k, W k * (s k * ∑ l, B k l * q l) =
      s (Fin.last r) * Spec.grad jac q (Fin.last r) - ∑ k, W k * (Spec.grad jac s k * Spec.grad jac q k) := by
  have e1 : (3 / 2 + 1 : ℝ) = 2.5 := by norm_num
  have e2 : (3 / 2 : ℝ) = 1.5 := by norm_num
  have := symm_parts (a := 3) (by norm_num) (jac := jac) (by rw [e1, e2]; exact g.zeros) s q
  rw [g.lap, g.weights]
  exact this

/-- C205. A profile is at rest at all nodes below the surface only if it is uniform. -/
theorem c205_uniform (g : Spec.BeadGrid jac B W) (q : Fin (r + 1) → ℝ)
    (h : ∀ k, k ≠ Fin.last r → ∑ l, B k l * q l = 0) (k l : Fin (r + 1)) : q k = q l := by
  refine symmB_kernel (a := 3) (by norm_num) g.zeros.1 (fun i => (g.zeros.2.1 i).2) q (fun k => ?_) k l
  have := h k.castSucc (Fin.castSucc_lt_last k).ne
  rwa [g.lap] at this

/-- C205. The roughness is nonnegative and vanishes for uniform profiles only. -/
theorem c205_rough (g : Spec.BeadGrid jac B W) (q : Fin (r + 1) → ℝ) :
    0 ≤ Spec.roughness jac W q ∧ (Spec.roughness jac W q = 0 ↔ ∀ k l, q k = q l) := by
  have hn : ∀ k ∈ Finset.univ, 0 ≤ W k * Spec.grad jac q k ^ 2 :=
    fun k _ => mul_nonneg (g.wpos k).le (sq_nonneg _)
  refine ⟨Finset.sum_nonneg hn, ?_, ?_⟩
  · intro h k l
    refine symmA_kernel g.zeros.1 (fun i => (g.zeros.2.1 i).1) (fun i => (g.zeros.2.1 i).2) q (fun k => ?_) k l
    have := (Finset.sum_eq_zero_iff_of_nonneg hn).1 h k (Finset.mem_univ k)
    rcases mul_eq_zero.1 this with h' | h'
    · exact absurd h' (g.wpos k).ne'
    · exact pow_eq_zero_iff (two_ne_zero) |>.1 h'
  · intro h
    refine Finset.sum_eq_zero (fun k _ => ?_)
    have hu := radialNodes_inj g.zeros.1 (fun i => (g.zeros.2.1 i).2)
    have : Spec.grad jac q k = 0 := by
      unfold Spec.grad
      rw [Finset.sum_congr rfl (fun l _ => by rw [h l k])]
      rw [← Finset.sum_mul]
      have h0 : ∑ l, symmA (radialNodes jac) k l = 0 := by
        unfold symmA
        rw [← Finset.mul_sum, c14_constants hu, mul_zero]
      rw [h0, zero_mul]
    rw [this]; ring

/-- Rate of the squared content of a bead whose interior follows `D` times the radial operator and whose surface row
closes the balance with the inflow `F`. -/
theorem bead_energy (g : Spec.BeadGrid jac B W) (D F : ℝ) (q d : Fin (r + 1) → ℝ)
    (hd : ∀ k, k ≠ Fin.last r → d k = D * ∑ l, B k l * q l)
    (hs : d (Fin.last r) = (F - ∑ k : Fin r, W k.castSucc * d k.castSucc) / W (Fin.last r)) :
    ∑ k, W k * (q k * d k) = q (Fin.last r) * F - D * Spec.roughness jac W q := by
  have hw := (g.wpos (Fin.last r)).ne'
  have hne : ∀ k : Fin r, k.castSucc ≠ Fin.last r := fun k => (Fin.castSucc_lt_last k).ne
  have p1 := c205_parts g (fun _ => 1) q
  have p2 := c205_parts g q q
  have hg1 : ∀ k, Spec.grad jac (fun _ => (1:ℝ)) k = 0 := by
    intro k
    unfold Spec.grad symmA
    simp only [mul_one]
    rw [← Finset.mul_sum, c14_constants (radialNodes_inj g.zeros.1 (fun i => (g.zeros.2.1 i).2)), mul_zero]
  simp only [hg1, one_mul, zero_mul, mul_zero, Finset.sum_const_zero, sub_zero] at p1
  have hr : ∑ k, W k * (Spec.grad jac q k * Spec.grad jac q k) = Spec.roughness jac W q :=
    Finset.sum_congr rfl (fun k _ => by ring)
  rw [hr] at p2
  rw [Fin.sum_univ_castSucc] at p1 p2 ⊢
  rw [hs, mul_comm (W (Fin.last r)), mul_assoc, div_mul_cancel₀ _ hw]
  simp only [hd _ (hne _)]
  have s1 : ∑ k : Fin r, W k.castSucc * (D * ∑ l, B k.castSucc l * q l) =
      D * ∑ k : Fin r, W k.castSucc * ∑ l, B k.castSucc l * q l := by
    rw [Finset.mul_sum]; exact Finset.sum_congr rfl (fun k _ => by ring)
  have s2 : ∑ k : Fin r, W k.castSucc * (q k.castSucc * (D * ∑ l, B k.castSucc l * q l)) =
      D * ∑ k : Fin r, W k.castSucc * (q k.castSucc * ∑ l, B k.castSucc l * q l) := by
    rw [Finset.mul_sum]; exact Finset.sum_congr rfl (fun k _ => by ring)
  rw [s1, s2]
  linear_combination D * p2 - D * q (Fin.last r) * p1

end

/-- C205, homogeneous batch model: the squared loading of every ion over the bead changes by what the film brings to the
surface, less surface diffusivity times the roughness. -/
theorem c205_batch (P : BatchParams r p) {jac : Fin r → ℝ} (g : Spec.BeadGrid jac P.Br P.Wr) {u d : BatchState r p}
    (h : hsdmBatchRhs P u = some d) {C : Fin (p + 1) → ℝ}
    (hC : ceqBatch P.K P.val (u (Fin.last (r + 1))) (∑ j, P.C0 j) = some C) (i : Fin (p + 1)) :
    ∑ k, P.Wr k * (u (Fin.succ k) i * d (Fin.succ k) i) =
      u (Fin.last (r + 1)) i * (P.kL * (u 0 i - C i) / P.rb) -
        P.Ds / P.rb ^ 2 * Spec.roughness jac P.Wr (fun k => u (Fin.succ k) i) := by
  simp only [hsdmBatchRhs, hC, Option.map_some] at h
  obtain rfl := Option.some.inj h
  have := bead_energy g (P.Ds / P.rb ^ 2) (P.kL * (u 0 i - C i) / P.rb) (fun k => u (Fin.succ k) i)
    (fun k => batchAssemble P (fun i => -P.kL * (u 0 i - C i))
      (fun k i => P.Ds / P.rb ^ 2 * ∑ l, P.Br k l * u l.succ i) k.succ i)
    (fun k hk => by rw [batchAssemble_bead, if_neg hk])
    (by
      rw [batchAssemble_bead, if_pos rfl]
      have e : ∀ k : Fin r, batchAssemble P (fun i => -P.kL * (u 0 i - C i))
          (fun k i => P.Ds / P.rb ^ 2 * ∑ l, P.Br k l * u l.succ i) k.castSucc.succ i =
          P.Ds / P.rb ^ 2 * ∑ l, P.Br k.castSucc l * u l.succ i := by
        intro k; rw [batchAssemble_bead, if_neg (Fin.castSucc_lt_last k).ne]
      simp only [e]
      congr 2
      ring)
  rw [this, Fin.succ_last]

/-- C205, homogeneous column model: the same at every axial point for every ion but the reference, in the solver's
time. -/
theorem c205_column (P : ColParams r p z) (tH : ℝ) (cin : Fin (p + 1) → ℝ) (u : ColState r p z) {jac : Fin r → ℝ}
    (g : Spec.BeadGrid jac P.Br P.Wr) {i : Fin (p + 1)} (hi : i ≠ 0) (w : Fin (z + 1)) :
    ∑ k, P.Wr k * (u (Fin.succ k) i w * hsdmixRhs P tH cin u (Fin.succ k) i w) =
      tH * (u (Fin.last (r + 1)) i w * (P.kL i * (setInlet u cin 0 i w - ceq P.K P.val
          (fun j => u (Fin.last (r + 1)) j w) (∑ j, setInlet u cin 0 j w) i) / P.rb) -
        P.Ds i / P.rb ^ 2 * Spec.roughness jac P.Wr (fun k => u (Fin.succ k) i w)) := by
  have hset : ∀ (l : Fin (r + 1)) i, setInlet u cin l.succ i w = u l.succ i w := by
    intro l i; unfold setInlet; rw [if_neg]; rintro ⟨h, -⟩; exact Fin.succ_ne_zero l h
  have hb : ∀ k, hsdmBead P tH (setInlet u cin) k i w =
      P.Ds i * tH / P.rb ^ 2 * ∑ l, P.Br k l * u l.succ i w := by
    intro k
    rw [hsdmBead, implicitRef, if_neg hi]
    simp only [hset]
  set Q := ceq P.K P.val (fun j => u (Fin.last (r + 1)) j w) (∑ j, setInlet u cin 0 j w) with hQ
  have hset' : (fun j => setInlet u cin (Fin.last (r + 1)) j w) = fun j => u (Fin.last (r + 1)) j w := by
    funext j; rw [← Fin.succ_last, hset]
  have e : ∀ k, hsdmixRhs P tH cin u (Fin.succ k) i w = if k = Fin.last r then
      (-tH / P.rb * (-P.kL i * (setInlet u cin 0 i w - Q i)) - ∑ k' : Fin r, P.Wr k'.castSucc *
        (P.Ds i * tH / P.rb ^ 2 * ∑ l, P.Br k'.castSucc l * u l.succ i w)) / P.Wr (Fin.last r)
      else P.Ds i * tH / P.rb ^ 2 * ∑ l, P.Br k l * u l.succ i w := by
    intro k
    unfold hsdmixRhs
    simp only []
    rw [assemble_bead]
    simp only [hb]
    rw [fluxJ, implicitRef, if_neg hi, hset']
  have := bead_energy g (P.Ds i * tH / P.rb ^ 2) (tH * (P.kL i * (setInlet u cin 0 i w - Q i) / P.rb))
    (fun k => u (Fin.succ k) i w) (fun k => hsdmixRhs P tH cin u (Fin.succ k) i w)
    (fun k hk => by rw [e, if_neg hk])
    (by
      simp only [e, if_true, (Fin.castSucc_lt_last _).ne, if_false]
      congr 2
      ring)
  rw [this, Fin.succ_last]
  ring

/-! ### C206 -/

/-- C206. At the boundary between two elements the advection operator of any values is a weighted mean, with positive
weights, of the slopes of the two elements; everywhere else but at the inlet it is the slope of the one element. -/
theorem c206_rows {NE M : ℕ} (hM : 0 < M) {x : Fin (M + 1) → ℝ} (hx : StrictMono x) (v : ℕ → ℝ) :
    (∃ s, 0 < s ∧ s < 1 ∧ ∀ k, k + 1 < NE →
      ∑ j ∈ Finset.range (NE * M + 1), advOp NE (M + 1) (arr2 (aMat x)) ((k + 1) * M) j * v j =
        (1 - s) * elemSlope NE M x v k (Fin.last M) + s * elemSlope NE M x v (k + 1) 0) ∧
    (∀ k < NE, ∀ m : Fin (M + 1), 0 < (m : ℕ) → ((m : ℕ) < M ∨ k + 1 = NE) →
      ∑ j ∈ Finset.range (NE * M + 1), advOp NE (M + 1) (arr2 (aMat x)) (k * M + (m : ℕ)) j * v j =
        elemSlope NE M x v k m) :=
  ⟨⟨ifaceShare x, (ifaceShare_mem hM hx).1, (ifaceShare_mem hM hx).2, fun _ hk => advOp_iface hM hx v hk⟩,
    fun _ hk m h0 hm => advOp_plain hM v hk m (by omega) hm h0⟩

/-- C206. Only uniform profiles are at rest under the advection operator on finite elements. -/
theorem c206_elements {NE M : ℕ} (hNE : 1 ≤ NE) (hM : 0 < M) {x : Fin (M + 1) → ℝ} (hx : StrictMono x) (v : ℕ → ℝ) :
    (∀ i, 0 < i → i < NE * M + 1 →
      ∑ j ∈ Finset.range (NE * M + 1), advOp NE (M + 1) (arr2 (aMat x)) i j * v j = 0) ↔
    ∀ i < NE * M + 1, v i = v 0 := by
  refine ⟨advOp_kernel hNE hM hx v, fun h i h0 hi => ?_⟩
  have hkM : ∀ k', (k' + 1) * M = k' * M + M := fun k' => by ring
  have hsl : ∀ k < NE, ∀ m, elemSlope NE M x v k m = 0 := by
    intro k hk m
    have hle : (k + 1) * M ≤ NE * M := Nat.mul_le_mul_right M (by omega)
    rw [hkM] at hle
    refine slope_const hx v k (fun j => ?_) m
    rw [h _ (by have := j.2; omega), h (k * M) (by omega)]
  have hdm := Nat.div_add_mod i M
  have hlt := Nat.mod_lt i hM
  have hmul : M * (i / M) = i / M * M := mul_comm _ _
  by_cases hm : i % M = 0
  · obtain ⟨c, hc⟩ : ∃ c, i / M = c + 1 := ⟨i / M - 1, by
      rcases Nat.eq_zero_or_pos (i / M) with h' | h'
      · rw [h'] at hmul hdm; omega
      · omega⟩
    rw [hc] at hmul hdm
    have hi' : i = (c + 1) * M := by omega
    have hcN : c + 1 ≤ NE := by
      by_contra hcon
      have : (NE + 1) * M ≤ (c + 1) * M := Nat.mul_le_mul_right M (by omega)
      rw [hkM] at this; omega
    by_cases hlast : c + 1 = NE
    · have := advOp_plain (NE := NE) (x := x) hM v (show c < NE by omega) (Fin.last M) (by simp; omega) (Or.inr hlast) (by simpa using hM)
      rw [hi', hkM]
      simp only [Fin.val_last] at this
      rw [this]; exact hsl _ (by omega) _
    · rw [hi', advOp_iface hM hx v (show c + 1 < NE by omega), hsl _ (by omega), hsl _ (by omega)]
      ring
  · have hk : i / M < NE := by
      by_contra hcon
      have : NE * M ≤ i / M * M := Nat.mul_le_mul_right M (by omega)
      omega
    have := advOp_plain (NE := NE) (x := x) hM v hk ⟨i % M, by omega⟩ (by simp; omega) (Or.inl hlt) (by simp; omega)
    simp only at this
    rw [show i / M * M + i % M = i by omega] at this
    rw [this]; exact hsl _ hk _

/-- What C208 uses of an axial operator: uniform profiles, and no others, are at rest below the inlet. -/
def Spec.MovesAll (A : Fin (z + 1) → Fin (z + 1) → ℝ) : Prop :=
  ∀ v : Fin (z + 1) → ℝ, (∀ w, w ≠ 0 → ∑ w', A w w' * v w' = 0) ↔ ∀ w, v w = v 0

/-- C206. So does the operator with one element. -/
theorem c206_single {x : Fin (z + 1) → ℝ} (hx : Function.Injective x) : Spec.MovesAll (aMat x) := by
  intro v
  refine ⟨fun h w => ?_, fun h w _ => ?_⟩
  · have hz : Polynomial.derivative (interpPoly x v) = 0 := by
      refine Polynomial.eq_zero_of_degree_lt_of_eval_finset_eq_zero ((Finset.univ.erase 0).image x) ?_ ?_
      · rw [Finset.card_image_of_injective _ hx, Finset.card_erase_of_mem (Finset.mem_univ _),
          Finset.card_univ, Fintype.card_fin, Nat.add_sub_cancel]
        have hd := interpPoly_degree hx (Nat.succ_pos z) v
        rw [Polynomial.degree_lt_iff_coeff_zero] at hd ⊢
        intro c hc
        rw [Polynomial.coeff_derivative, hd (c + 1) (by omega), zero_mul]
      · intro y hy
        obtain ⟨m, hm, rfl⟩ := Finset.mem_image.1 hy
        have h1 := aMat_apply hx (interpPoly_degree hx (Nat.succ_pos z) v) m
        simp only [interpPoly_eval hx] at h1
        rw [← h1]
        exact h m (Finset.mem_erase.1 hm).1
    have hc := Polynomial.eq_C_of_natDegree_eq_zero (Polynomial.derivative_eq_zero.1 hz)
    rw [← interpPoly_eval hx v w, ← interpPoly_eval hx v 0, hc, Polynomial.eval_C, Polynomial.eval_C]
  · simp only [h]
    rw [← Finset.sum_mul, c14_constants hx, zero_mul]

/-- C206. And, read as a square array, the operator on elements. -/
theorem c206_array {NE M : ℕ} (hNE : 1 ≤ NE) (hM : 0 < M) {x : Fin (M + 1) → ℝ} (hx : StrictMono x) :
    Spec.MovesAll (fun i j : Fin (NE * M + 1) => advOp NE (M + 1) (arr2 (aMat x)) i j) := by
  intro v
  have key := c206_elements hNE hM hx (fun i => if h : i < NE * M + 1 then v ⟨i, h⟩ else 0)
  have hsum : ∀ i : ℕ, ∑ j ∈ Finset.range (NE * M + 1), advOp NE (M + 1) (arr2 (aMat x)) i j *
      (if h : j < NE * M + 1 then v ⟨j, h⟩ else 0) = ∑ j : Fin (NE * M + 1), advOp NE (M + 1) (arr2 (aMat x)) i j * v j := by
    intro i
    rw [Finset.sum_range]
    exact Finset.sum_congr rfl (fun j _ => by rw [dif_pos j.2])
  simp only [hsum] at key
  constructor
  · intro h w
    have := key.1 (fun i h0 hi => h ⟨i, hi⟩ (by intro e; have := congrArg Fin.val e; simp at this; omega)) w w.2
    rw [dif_pos w.2, dif_pos (Nat.succ_pos _)] at this
    exact this
  · intro h w hw
    refine key.2 (fun i hi => ?_) w (Nat.pos_of_ne_zero (fun e => hw (Fin.ext e))) w.2
    rw [dif_pos hi, dif_pos (Nat.succ_pos _), h ⟨i, hi⟩]
    rfl

example : StrictMono (![0, 1 / 2, 1] : Fin 3 → ℝ) := by
  intro i j h
  fin_cases i <;> fin_cases j <;> simp at h ⊢
  norm_num

/-! ### C207 -/

/-- The equilibrium liquid in terms of one number: its ratio to the loading of the reference ion. -/
theorem ceq_form {K : Fin (p + 1) → ℝ} {val : Fin (p + 1) → ℕ} {q : Fin (p + 1) → ℝ} {CT : ℝ} (h : DvOk K val q)
    (hval : ∀ i, val i = 1 ∨ val i = 2) (hCT : 0 < CT) :
    ∃ x, 0 < x ∧ (∀ i, ceq K val q CT i = q i * (x ^ val i / K i)) ∧ ∑ i, ceq K val q CT i = CT := by
  by_cases hdv : ∃ i, val i = 2
  · have h23 := c23_divalent h hval hdv hCT
    refine ⟨ceq K val q CT 0 / q 0, div_pos h23.2.2.2.1 h.qref, fun i => ?_, h23.1⟩
    have hs := h23.2.1 i
    have h0 := h23.2.2.2.1.ne'
    have hq0 := h.qref.ne'
    have hK := (h.Kpos i).ne'
    conv_rhs => rw [hs]
    rw [div_pow, div_pow]
    field_simp
  · have hval' : ∀ i, val i ≠ 2 := fun i hi => hdv ⟨i, hi⟩
    have h22 := c22_monovalent h.Kpos h.qnonneg ⟨0, h.qref.ne'⟩ hCT.le hval'
    have hS := loading_pos h.Kpos h.qnonneg ⟨0, h.qref.ne'⟩
    refine ⟨CT / ∑ j, q j / K j, div_pos hCT hS, fun i => ?_, h22.1⟩
    rw [show val i = 1 from (hval i).resolve_right (hval' i), pow_one, ceq, if_neg hdv, ceqMv, mv_denom]
    have hK := (h.Kpos i).ne'
    have := hS.ne'
    field_simp

/-- Two loadings of the same total whose pore concentrations have the same total, and whose diffusing amounts agree for
every ion but the reference, are the same. -/
theorem pore_unique {y1 y2 b c : Fin (p + 1) → ℝ} {e1 e2 : Fin (p + 1) → ℝ}
    (hy1 : ∀ i, 0 ≤ y1 i) (hy2 : ∀ i, 0 ≤ y2 i) (hs : ∑ i, y1 i = ∑ i, y2 i)
    (hb : ∀ i, i ≠ 0 → 0 ≤ b i) (hc : ∀ i, i ≠ 0 → 0 < c i) (he : ∀ i, 0 ≤ e1 i) (hle : ∀ i, e1 i ≤ e2 i)
    (hlt : e1 0 < e2 0 ∨ e1 = e2)
    (hd : ∀ i, i ≠ 0 → y1 i * (b i * e1 i + c i) = y2 i * (b i * e2 i + c i))
    (hC : ∑ i, y1 i * e1 i = ∑ i, y2 i * e2 i) : y1 = y2 := by
  have hge : ∀ i, i ≠ 0 → y2 i ≤ y1 i := by
    intro i hi
    have h1 : 0 < b i * e1 i + c i := by have := mul_nonneg (hb i hi) (he i); have := hc i hi; linarith
    have h2 : b i * e1 i + c i ≤ b i * e2 i + c i := by
      have := mul_le_mul_of_nonneg_left (hle i) (hb i hi); linarith
    have h3 : y2 i * (b i * e1 i + c i) ≤ y1 i * (b i * e1 i + c i) := by
      rw [hd i hi]; exact mul_le_mul_of_nonneg_left h2 (hy2 i)
    exact le_of_mul_le_mul_right h3 h1
  have hrest : ∀ i, i ≠ 0 → y1 i * e1 i ≤ y2 i * e2 i := by
    intro i hi
    have hb' := hb i hi
    have hc' := hc i hi
    have h1 := hd i hi
    have h2 := hge i hi
    have h3 : c i * (y1 i - y2 i) = b i * (y2 i * e2 i - y1 i * e1 i) := by linarith
    rcases hb'.lt_or_eq with hb1 | hb1
    · have : 0 ≤ b i * (y2 i * e2 i - y1 i * e1 i) := by rw [← h3]; exact mul_nonneg hc'.le (by linarith)
      have := nonneg_of_mul_nonneg_right this hb1
      linarith
    · have : y1 i = y2 i := by
        rw [← hb1, zero_mul] at h3
        rcases mul_eq_zero.1 h3 with h' | h'
        · linarith
        · linarith
      rw [this]
      exact mul_le_mul_of_nonneg_left (hle i) (hy2 i)
  have hs0 : y1 0 = y2 0 - ∑ j : Fin p, (y1 j.succ - y2 j.succ) := by
    rw [Fin.sum_univ_succ, Fin.sum_univ_succ] at hs
    rw [Finset.sum_sub_distrib]; linarith
  have hd0 : 0 ≤ ∑ j : Fin p, (y1 j.succ - y2 j.succ) :=
    Finset.sum_nonneg (fun j _ => sub_nonneg.2 (hge j.succ (Fin.succ_ne_zero j)))
  have hC0 : y1 0 * e1 0 = y2 0 * e2 0 + ∑ j : Fin p, (y2 j.succ * e2 j.succ - y1 j.succ * e1 j.succ) := by
    rw [Fin.sum_univ_succ, Fin.sum_univ_succ] at hC
    rw [Finset.sum_sub_distrib]; linarith
  have hr0 : 0 ≤ ∑ j : Fin p, (y2 j.succ * e2 j.succ - y1 j.succ * e1 j.succ) :=
    Finset.sum_nonneg (fun j _ => sub_nonneg.2 (hrest j.succ (Fin.succ_ne_zero j)))
  -- the reference ion cannot differ
  have h0 : y1 0 = y2 0 := by
    rcases hlt with hlt | heq
    · have hle0 : y1 0 ≤ y2 0 := by linarith
      rcases (hy2 0).lt_or_eq with hpos | hz
      · exfalso
        have h1 : y1 0 * e1 0 ≤ y2 0 * e1 0 := mul_le_mul_of_nonneg_right hle0 (he 0)
        have h2 : y2 0 * e1 0 < y2 0 * e2 0 := mul_lt_mul_of_pos_left hlt hpos
        linarith
      · have := hy1 0
        linarith
    · subst heq
      have hall : ∀ i, i ≠ 0 → y1 i = y2 i := by
        intro i hi
        have h1 : b i * e1 i + c i ≠ 0 := by
          have := mul_nonneg (hb i hi) (he i); have := hc i hi
          intro h; linarith
        exact mul_right_cancel₀ h1 (hd i hi)
      have : ∑ j : Fin p, (y1 j.succ - y2 j.succ) = 0 :=
        Finset.sum_eq_zero (fun j _ => sub_eq_zero.2 (hall j.succ (Fin.succ_ne_zero j)))
      linarith
  funext i
  refine Fin.cases h0 (fun j => ?_) i
  have hz : ∑ j : Fin p, (y1 j.succ - y2 j.succ) = 0 := by linarith
  have := (Finset.sum_eq_zero_iff_of_nonneg
    (fun j _ => sub_nonneg.2 (hge (Fin.succ j) (Fin.succ_ne_zero j)))).1 hz j (Finset.mem_univ j)
  linarith

/-- The same for loadings and the equilibrium of the code. -/
theorem pore_profile {K : Fin (p + 1) → ℝ} {val : Fin (p + 1) → ℕ} {y1 y2 b c : Fin (p + 1) → ℝ} {e CT : ℝ} (he : e < 1)
    (h1 : DvOk K val (fun i => y1 i / (1 - e))) (h2 : DvOk K val (fun i => y2 i / (1 - e)))
    (hval : ∀ i, val i = 1 ∨ val i = 2) (hCT : 0 < CT) (hs : ∑ i, y1 i = ∑ i, y2 i)
    (hb : ∀ i, i ≠ 0 → 0 ≤ b i) (hc : ∀ i, i ≠ 0 → 0 < c i)
    (hd : ∀ i, i ≠ 0 → b i * ceq K val (fun i => y1 i / (1 - e)) CT i + c i * y1 i =
      b i * ceq K val (fun i => y2 i / (1 - e)) CT i + c i * y2 i) : y1 = y2 := by
  have he' : 0 < 1 - e := by linarith
  obtain ⟨x1, p1, f1, n1⟩ := ceq_form h1 hval hCT
  obtain ⟨x2, p2, f2, n2⟩ := ceq_form h2 hval hCT
  have nn : ∀ {y : Fin (p + 1) → ℝ}, DvOk K val (fun i => y i / (1 - e)) → ∀ i, 0 ≤ y i := by
    intro y h i
    have := mul_nonneg (h.qnonneg i) he'.le
    rwa [div_mul_cancel₀ _ he'.ne'] at this
  have hval0 : val 0 = 1 := h1.valRef
  have hK := h1.Kpos
  have key : ∀ {y1 y2 : Fin (p + 1) → ℝ} {x1 x2 : ℝ}, (∀ i, 0 ≤ y1 i) → (∀ i, 0 ≤ y2 i) → ∑ i, y1 i = ∑ i, y2 i →
      0 < x1 → x1 ≤ x2 →
      (∀ i, i ≠ 0 → b i * (y1 i / (1 - e) * (x1 ^ val i / K i)) + c i * y1 i =
        b i * (y2 i / (1 - e) * (x2 ^ val i / K i)) + c i * y2 i) →
      ∑ i, y1 i / (1 - e) * (x1 ^ val i / K i) = ∑ i, y2 i / (1 - e) * (x2 ^ val i / K i) → y1 = y2 := by
    intro y1 y2 x1 x2 hy1 hy2 hs hx1 hx hd hC
    refine pore_unique (b := b) (c := c) (e1 := fun i => x1 ^ val i / K i / (1 - e))
      (e2 := fun i => x2 ^ val i / K i / (1 - e)) hy1 hy2 hs hb hc
      (fun i => div_nonneg (div_nonneg (pow_nonneg hx1.le _) (hK i).le) he'.le)
      (fun i => div_le_div_of_nonneg_right (div_le_div_of_nonneg_right (pow_le_pow_left₀ hx1.le hx _) (hK i).le) he'.le)
      ?_ (fun i hi => ?_) ?_
    · rcases hx.lt_or_eq with hx' | hx'
      · left
        simp only [hval0, pow_one]
        exact div_lt_div_of_pos_right (div_lt_div_of_pos_right hx' (hK 0)) he'
      · right; rw [hx']
    · have := hd i hi
      linear_combination this
    · have e1 : ∀ (y : Fin (p + 1) → ℝ) (x : ℝ), ∑ i, y i * (x ^ val i / K i / (1 - e)) =
          ∑ i, y i / (1 - e) * (x ^ val i / K i) :=
        fun y x => Finset.sum_congr rfl (fun i _ => by ring)
      rw [e1, e1]; exact hC
  simp only [f1, f2] at hd n1 n2
  rcases le_total x1 x2 with hx | hx
  · exact key (nn h1) (nn h2) hs p1 hx hd (n1.trans n2.symm)
  · exact (key (nn h2) (nn h1) hs.symm p2 hx (fun i hi => (hd i hi).symm) (n2.trans n1.symm)).symm

/-- What the batch equilibrium returns, when it returns anything, is the equilibrium of the column models. -/
theorem ceqBatch_eq {K : Fin (p + 1) → ℝ} {val : Fin (p + 1) → ℕ} {q C : Fin (p + 1) → ℝ} {CT : ℝ} (h : DvOk K val q)
    (hval : ∀ i, val i = 1 ∨ val i = 2) (hCT : 0 < CT) (hC : ceqBatch K val q CT = some C) : C = ceq K val q CT := by
  by_cases hdv : ∃ i, val i = 2
  · by_cases hl : ∃ i, val i = 2 ∧ q i ≠ 0
    · rw [c25_same h hl hCT.le] at hC
      exact (Option.some.inj hC).symm
    · have := (c25_no_divalent_loaded h hdv (fun i hi => by
        by_contra hq; exact hl ⟨i, hi, hq⟩) hval hCT.le).1
      rw [this] at hC; cases hC
  · rw [ceqBatch, if_neg hdv] at hC
    rw [ceq, if_neg hdv]
    exact (Option.some.inj hC).symm

/-- Specification: a batch state at equilibrium. The beads are uniform, and the water holds, ion by ion, the concentration
`C` in equilibrium with the bead surface. -/
def Spec.BatchRest (u : BatchState r p) (C : Fin (p + 1) → ℝ) : Prop :=
  (∀ (k l : Fin (r + 1)) i, u k.succ i = u l.succ i) ∧ ∀ i, u 0 i = C i

/-- C207. The homogeneous batch model stands still exactly at equilibrium. -/
theorem c207_hsdm (P : BatchParams r p) {jac : Fin r → ℝ} (g : Spec.BeadGrid jac P.Br P.Wr) (hrb : P.rb ≠ 0)
    (hD : P.Ds ≠ 0) (hk : P.kL ≠ 0) {u d : BatchState r p} (h : hsdmBatchRhs P u = some d)
    {C : Fin (p + 1) → ℝ} (hC : ceqBatch P.K P.val (u (Fin.last (r + 1))) (∑ j, P.C0 j) = some C) :
    (∀ a i, d a i = 0) ↔ Spec.BatchRest u C := by
  simp only [hsdmBatchRhs, hC, Option.map_some] at h
  obtain rfl := Option.some.inj h
  set J : Fin (p + 1) → ℝ := fun i => -P.kL * (u 0 i - C i) with hJ
  set dq : Fin (r + 1) → Fin (p + 1) → ℝ := fun k i => P.Ds / P.rb ^ 2 * ∑ l, P.Br k l * u l.succ i with hdq
  have hc : P.Ds / P.rb ^ 2 ≠ 0 := div_ne_zero hD (pow_ne_zero 2 hrb)
  constructor
  · intro h0
    have hint : ∀ k, k ≠ Fin.last r → ∀ i, dq k i = 0 := by
      intro k hk i
      have := h0 k.succ i
      rwa [batchAssemble_bead, if_neg hk] at this
    refine ⟨fun k l i => c205_uniform g (fun k => u (Fin.succ k) i) (fun k hk => ?_) k l, fun i => ?_⟩
    · exact (mul_eq_zero.1 (hint k hk i)).resolve_left hc
    · have := h0 (Fin.last r).succ i
      rw [batchAssemble_bead, if_pos rfl] at this
      have hz : ∑ k' : Fin r, P.Wr k'.castSucc * dq k'.castSucc i = 0 :=
        Finset.sum_eq_zero (fun k _ => by rw [hint _ (Fin.castSucc_lt_last k).ne, mul_zero])
      rw [hz, sub_zero] at this
      have h1 := (div_eq_zero_iff.1 this).resolve_right (g.wpos _).ne'
      have h2 := (div_eq_zero_iff.1 h1).resolve_right hrb
      rw [neg_eq_zero, hJ] at h2
      have := (mul_eq_zero.1 h2).resolve_left (neg_ne_zero.2 hk)
      linarith
  · rintro ⟨hu, h0⟩ a i
    have hq : ∀ k i, dq k i = 0 := by
      intro k i
      rw [hdq]
      simp only
      rw [Finset.sum_congr rfl (fun l _ => by rw [hu l k]), ← Finset.sum_mul, g.rows, zero_mul, mul_zero]
    have hJ0 : ∀ i, J i = 0 := by intro i; rw [hJ]; simp only; rw [h0]; ring
    refine Fin.cases ?_ (fun k => ?_) a
    · show 3 * P.VR / P.rb * J i / P.VL = 0
      rw [hJ0]; ring
    · rw [batchAssemble_bead]
      simp only [hq, hJ0]
      simp

/-- C207. So does the pore and surface batch model, for beads of one total loading with some presaturant everywhere, and
pore diffusion at least as fast as surface diffusion. -/
theorem c207_psdm (P : BatchParams r p) {jac : Fin r → ℝ} (g : Spec.BeadGrid jac P.Br P.Wr) (hrb : P.rb ≠ 0)
    (hD : 0 < P.Ds) (hDp : P.Ds ≤ P.Dp) (hk : P.kL ≠ 0) (he0 : 0 ≤ P.EPOR) (he : P.EPOR < 1)
    (hval : ∀ i, P.val i = 1 ∨ P.val i = 2) (hCT : 0 < ∑ j, P.C0 j) {u d : BatchState r p}
    (hu : ∀ k : Fin (r + 1), DvOk P.K P.val (fun i => u k.succ i / (1 - P.EPOR)))
    (htot : ∀ k l : Fin (r + 1), ∑ i, u k.succ i = ∑ i, u l.succ i) (h : psdmBatchRhs P u = some d)
    {C : Fin (p + 1) → ℝ}
    (hC : ceqBatch P.K P.val (fun j => u (Fin.last (r + 1)) j / (1 - P.EPOR)) (∑ j, P.C0 j) = some C) :
    (∀ a i, d a i = 0) ↔ Spec.BatchRest u C := by
  unfold psdmBatchRhs at h
  simp only at h
  split at h
  swap
  · cases h
  rename_i hs
  have hg : ∀ k : Fin (r + 1), (ceqBatch P.K P.val (fun i => u k.succ i / (1 - P.EPOR)) (∑ j, P.C0 j)).get (hs k) =
      ceq P.K P.val (fun i => u k.succ i / (1 - P.EPOR)) (∑ j, P.C0 j) :=
    fun k => ceqBatch_eq (hu k) hval hCT (by simp)
  have hC' : C = ceq P.K P.val (fun i => u (Fin.last r).succ i / (1 - P.EPOR)) (∑ j, P.C0 j) :=
    ceqBatch_eq (hu _) hval hCT (by rw [Fin.succ_last]; exact hC)
  simp only [hg] at h
  rw [← hC'] at h
  obtain rfl := Option.some.inj h
  set cp : Fin (r + 1) → Fin (p + 1) → ℝ := fun k => ceq P.K P.val (fun i => u k.succ i / (1 - P.EPOR)) (∑ j, P.C0 j)
    with hcp
  set J : Fin (p + 1) → ℝ := fun i => -P.kL * (u 0 i - C i) with hJ
  set dq : Fin (r + 1) → Fin (p + 1) → ℝ := fun k i => (P.EPOR * (P.Dp - P.Ds) * (∑ l, P.Br k l * cp l i) +
    P.Ds * ∑ l, P.Br k l * u l.succ i) / P.rb ^ 2 with hdq
  have hcomb : ∀ k i, dq k i = (∑ l, P.Br k l * (P.EPOR * (P.Dp - P.Ds) * cp l i + P.Ds * u l.succ i)) / P.rb ^ 2 := by
    intro k i
    rw [hdq]
    simp only
    rw [Finset.mul_sum, Finset.mul_sum, ← Finset.sum_add_distrib]
    congr 1
    exact Finset.sum_congr rfl (fun l _ => by ring)
  constructor
  · intro h0
    have hint : ∀ k, k ≠ Fin.last r → ∀ i, dq k i = 0 := by
      intro k hk i
      have := h0 k.succ i
      rwa [batchAssemble_bead, if_neg hk] at this
    refine ⟨fun k l i => ?_, fun i => ?_⟩
    · have := pore_profile (y1 := fun i => u k.succ i) (y2 := fun i => u l.succ i)
        (b := fun _ => P.EPOR * (P.Dp - P.Ds)) (c := fun _ => P.Ds) he (hu k) (hu l) hval hCT (htot k l)
        (fun _ _ => mul_nonneg he0 (by linarith)) (fun _ _ => hD) (fun i _ => by
          refine c205_uniform g (fun k => P.EPOR * (P.Dp - P.Ds) * cp k i + P.Ds * u k.succ i) (fun k hk => ?_) k l
          have := hint k hk i
          rw [hcomb] at this
          exact (div_eq_zero_iff.1 this).resolve_right (pow_ne_zero 2 hrb))
      exact congrFun this i
    · have := h0 (Fin.last r).succ i
      rw [batchAssemble_bead, if_pos rfl] at this
      have hz : ∑ k' : Fin r, P.Wr k'.castSucc * dq k'.castSucc i = 0 :=
        Finset.sum_eq_zero (fun k _ => by rw [hint _ (Fin.castSucc_lt_last k).ne, mul_zero])
      rw [hz, sub_zero] at this
      have h1 := (div_eq_zero_iff.1 this).resolve_right (g.wpos _).ne'
      have h2 := (div_eq_zero_iff.1 h1).resolve_right hrb
      rw [neg_eq_zero, hJ] at h2
      have := (mul_eq_zero.1 h2).resolve_left (neg_ne_zero.2 hk)
      linarith
  · rintro ⟨huni, h0⟩ a i
    have hcu : ∀ k l i, cp k i = cp l i := by
      intro k l i
      rw [hcp]
      simp only
      rw [show (fun i => u k.succ i / (1 - P.EPOR)) = fun i => u l.succ i / (1 - P.EPOR) from
        funext (fun i => by rw [huni k l])]
    have hq : ∀ k i, dq k i = 0 := by
      intro k i
      rw [hcomb, Finset.sum_congr rfl (fun l _ => by rw [huni l k, hcu l k]), ← Finset.sum_mul, g.rows, zero_mul, zero_div]
    have hJ0 : ∀ i, J i = 0 := by intro i; rw [hJ]; simp only; rw [h0]; ring
    refine Fin.cases ?_ (fun k => ?_) a
    · show 3 * P.VR / P.rb * J i / P.VL = 0
      rw [hJ0]; ring
    · rw [batchAssemble_bead]
      simp only [hq, hJ0]
      simp

/-- The hypotheses of `c207_psdm` are met: two ions, three bead points, the water in equilibrium or not. -/
example : ∃ (P : BatchParams 2 1) (jac : Fin 2 → ℝ), Spec.BeadGrid jac P.Br P.Wr ∧
    (∃ d, psdmBatchRhs P (fun a => if a = 0 then ![2, 1] else ![1, 3 / 2]) = some d ∧ ∀ a i, d a i = 0) ∧
    (∃ d, psdmBatchRhs P (fun a => if a = 0 then ![1, 2] else ![1, 3 / 2]) = some d ∧ ¬ ∀ a i, d a i = 0) := by
  obtain ⟨jac, B, W, g⟩ := beadGrid_exists 2
  let P : BatchParams 2 1 := ⟨1, 5, 1 / 2, 1, 1, 1, 2, 1, 1 / 10, ![2, 1], ![1, 3], fun _ => 1, B, W⟩
  have hval : ¬ ∃ i : Fin 2, P.val i = 2 := by rintro ⟨i, hi⟩; cases hi
  let u : (Fin 2 → ℝ) → BatchState 2 1 := fun c a => if a = 0 then c else ![1, 3 / 2]
  have hu : ∀ c (k : Fin 3), (fun i => u c k.succ i / (1 - P.EPOR)) = ![2, 3] := by
    intro c k
    funext i
    have e : u c k.succ i = (![1, 3 / 2] : Fin 2 → ℝ) i := by
      simp only [u]; rw [if_neg (Fin.succ_ne_zero k)]
    rw [e]
    show _ / (1 - (1 / 2 : ℝ)) = _
    fin_cases i <;> norm_num
  have hceq : ceqBatch P.K P.val ![2, 3] (∑ j, P.C0 j) = some ![2, 1] := by
    unfold ceqBatch
    rw [if_neg hval]
    congr 1
    funext i
    fin_cases i <;> simp [ceqMv, alphaMat, Fin.sum_univ_two, P] <;> norm_num
  have hsome : ∀ c, ∃ d, psdmBatchRhs P (u c) = some d := by
    intro c
    unfold psdmBatchRhs
    simp only
    rw [dif_pos (fun k => by rw [hu, hceq]; rfl)]
    exact ⟨_, rfl⟩
  have key : ∀ c d, psdmBatchRhs P (u c) = some d → ((∀ a i, d a i = 0) ↔ Spec.BatchRest (u c) ![2, 1]) := by
    intro c d hd
    refine c207_psdm P g (by show (1 / 10 : ℝ) ≠ 0; norm_num) (by show (0 : ℝ) < 1; norm_num)
      (by show (1 : ℝ) ≤ 2; norm_num) (by show (1 : ℝ) ≠ 0; norm_num) (by show (0 : ℝ) ≤ 1 / 2; norm_num)
      (by show (1 / 2 : ℝ) < 1; norm_num) (fun _ => Or.inl rfl) ?_ (fun k => ?_) (fun k l => ?_) hd ?_
    · show 0 < ∑ j, (![2, 1] : Fin 2 → ℝ) j
      rw [Fin.sum_univ_two]; norm_num
    · rw [hu]
      exact ⟨fun i => by fin_cases i <;> simp [P], rfl, fun i => by fin_cases i <;> simp, by simp, rfl⟩
    · simp only [u, Fin.succ_ne_zero, if_false]
    · have := hu c (Fin.last 2)
      rw [Fin.succ_last] at this
      rw [this]; exact hceq
  refine ⟨P, jac, g, ?_, ?_⟩
  · obtain ⟨d, hd⟩ := hsome ![2, 1]
    refine ⟨d, hd, (key _ d hd).2 ⟨fun k l i => ?_, fun i => rfl⟩⟩
    simp only [u, Fin.succ_ne_zero, if_false]
  · obtain ⟨d, hd⟩ := hsome ![1, 2]
    refine ⟨d, hd, fun h => ?_⟩
    have := ((key _ d hd).1 h).2 0
    simp [u] at this

/-! ### C208 -/

/-- Specification: a column at rest with its influent. Below the inlet the water is the influent, the beads are uniform
and in equilibrium with the influent. -/
def Spec.ColumnRest (ceqAt : Fin (z + 1) → Fin (p + 1) → ℝ) (cin : Fin (p + 1) → ℝ) (u : ColState r p z) : Prop :=
  (∀ i w, w ≠ 0 → u 0 i w = cin i) ∧ (∀ (k l : Fin (r + 1)) i w, u k.succ i w = u l.succ i w) ∧
    ∀ w i, ceqAt w i = cin i

/-- C208. A column of either model, on the grids of the code, stands still exactly when its water is the influent
throughout and every bead is uniform and in equilibrium with it. The states considered hold some presaturant everywhere and
one total loading across each bead (C28 keeps it); in the pore model, pores diffuse at least as fast as surfaces. -/
theorem c208_column (m : ColModel) (P : ColParams r p z) {jac : Fin r → ℝ} (g : Spec.BeadGrid jac P.Br P.Wr)
    (hA : Spec.MovesAll P.Az) {tH : ℝ} (htH : tH ≠ 0) (hrb : P.rb ≠ 0) (hE : P.EBED ≠ 0) (hv : P.v ≠ 0) (hL : P.L ≠ 0)
    (hD : ∀ i, i ≠ 0 → 0 < P.Ds i) (hkL : ∀ i, i ≠ 0 → P.kL i ≠ 0)
    (hpore : m = .psdm → 0 ≤ P.EPOR ∧ P.EPOR < 1 ∧ ∀ i, i ≠ 0 → P.Ds i ≤ P.Dp i)
    (hval : ∀ i, P.val i = 1 ∨ P.val i = 2) (cin : Fin (p + 1) → ℝ) (u : ColState r p z)
    (hCT : ∀ w, 0 < ∑ j, setInlet u cin 0 j w)
    (hu : ∀ (k : Fin (r + 1)) w, DvOk P.K P.val (fun i => m.load P (u k.succ i w)))
    (htot : ∀ (k l : Fin (r + 1)) w, ∑ i, u k.succ i w = ∑ i, u l.succ i w) :
    (∀ a i w, m.rhs P tH cin u a i w = 0) ↔
      Spec.ColumnRest (fun w => ceq P.K P.val (fun j => m.load P (u (Fin.last (r + 1)) j w)) (∑ j, cin j)) cin u := by
  have hset : ∀ (l : Fin (r + 1)) i w, setInlet u cin l.succ i w = u l.succ i w := by
    intro l i w; unfold setInlet; rw [if_neg]; rintro ⟨h, -⟩; exact Fin.succ_ne_zero l h
  have hlastset : ∀ i w, setInlet u cin (Fin.last (r + 1)) i w = u (Fin.last (r + 1)) i w := by
    intro i w; rw [← Fin.succ_last, hset]
  have hin : ∀ i, setInlet u cin 0 i 0 = cin i := by intro i; simp [setInlet]
  have hbel : ∀ i w, w ≠ 0 → setInlet u cin 0 i w = u 0 i w := by
    intro i w hw; unfold setInlet; rw [if_neg]; rintro ⟨-, h⟩; exact hw h
  constructor
  · intro h0
    -- interior bead rates
    have hint : ∀ k, k ≠ Fin.last r → ∀ i w, m.bead P tH (setInlet u cin) k i w = 0 := by
      intro k hk i w
      have := h0 k.succ i w
      rwa [rhs_eq, assemble_bead, if_neg hk] at this
    -- flux
    have hflux : ∀ i w, m.flux P (setInlet u cin) i w = 0 := by
      intro i w
      have := h0 (Fin.last r).succ i w
      rw [rhs_eq, assemble_bead, if_pos rfl] at this
      have hz : ∑ k' : Fin r, P.Wr k'.castSucc * m.bead P tH (setInlet u cin) k'.castSucc i w = 0 :=
        Finset.sum_eq_zero (fun k _ => by rw [hint _ (Fin.castSucc_lt_last k).ne, mul_zero])
      rw [hz, sub_zero] at this
      have h1 := (div_eq_zero_iff.1 this).resolve_right (g.wpos _).ne'
      exact (mul_eq_zero.1 h1).resolve_left (div_ne_zero (neg_ne_zero.2 htH) hrb)
    -- liquid
    have hliq : ∀ i w, setInlet u cin 0 i w = cin i := by
      intro i w
      rw [← hin i]
      refine (hA (setInlet u cin 0 i)).1 (fun w hw => ?_) w
      have := h0 0 i w
      rw [rhs_eq, assemble_liq, if_neg hw, liqRate, hflux] at this
      have h1 := (mul_eq_zero.1 this).resolve_right htH
      have h2 := (div_eq_zero_iff.1 h1).resolve_right hE
      simp only [zero_mul, zero_div, mul_zero, add_zero] at h2
      exact (mul_eq_zero.1 h2).resolve_left (div_ne_zero (neg_ne_zero.2 hv) hL)
    have hCTc : ∀ w, ∑ j, setInlet u cin 0 j w = ∑ j, cin j := fun w =>
      Finset.sum_congr rfl (fun j _ => hliq j w)
    have hCTpos : 0 < ∑ j, cin j := by rw [← hCTc 0]; exact hCT 0
    -- equilibrium
    have heq : ∀ w i, ceq P.K P.val (fun j => m.load P (u (Fin.last (r + 1)) j w)) (∑ j, cin j) i = cin i := by
      intro w
      have hne : ∀ i, i ≠ 0 → ceq P.K P.val (fun j => m.load P (u (Fin.last (r + 1)) j w)) (∑ j, cin j) i = cin i := by
        intro i hi
        have := hflux i w
        unfold ColModel.flux fluxJ implicitRef at this
        simp only [hlastset, hliq] at this
        rw [if_neg hi] at this
        have := (mul_eq_zero.1 this).resolve_left (neg_ne_zero.2 (hkL i hi))
        linarith
      have hsum : ∑ i, ceq P.K P.val (fun j => m.load P (u (Fin.last (r + 1)) j w)) (∑ j, cin j) i = ∑ j, cin j := by
        have := hu (Fin.last r) w
        rw [Fin.succ_last] at this
        obtain ⟨x, -, -, hx⟩ := ceq_form this hval hCTpos
        exact hx
      intro i
      refine Fin.cases ?_ (fun j => hne j.succ (Fin.succ_ne_zero j)) i
      set E := ceq P.K P.val (fun j => m.load P (u (Fin.last (r + 1)) j w)) (∑ j, cin j) with hE'
      rw [Fin.sum_univ_succ, Fin.sum_univ_succ (f := cin),
        Finset.sum_congr rfl (fun j _ => hne (Fin.succ j) (Fin.succ_ne_zero j))] at hsum
      linarith
    refine ⟨fun i w hw => by rw [← hbel i w hw]; exact hliq i w, fun k l i w => ?_, heq⟩
    -- beads
    cases m with
    | hsdm =>
      have hother : ∀ j, j ≠ 0 → u k.succ j w = u l.succ j w := by
        intro j hj
        refine c205_uniform g (fun k => u k.succ j w) (fun k hk => ?_) k l
        have := hint k hk j w
        simp only [ColModel.bead, hsdmBead, implicitRef, if_neg hj, hset] at this
        exact (mul_eq_zero.1 this).resolve_left
          (div_ne_zero (mul_ne_zero (hD j hj).ne' htH) (pow_ne_zero 2 hrb))
      refine Fin.cases ?_ (fun j => hother j.succ (Fin.succ_ne_zero j)) i
      have := htot k l w
      rw [Fin.sum_univ_succ, Fin.sum_univ_succ, Finset.sum_congr rfl
        (fun j _ => hother (Fin.succ j) (Fin.succ_ne_zero j))] at this
      linarith
    | psdm =>
      obtain ⟨he0, he, hDp⟩ := hpore rfl
      have hpc : ∀ k i, poreConc P (setInlet u cin) k i w =
          ceq P.K P.val (fun i => u k.succ i w / (1 - P.EPOR)) (∑ j, cin j) i := by
        intro k i
        unfold poreConc
        simp only [hset, hCTc]
      have := pore_profile (y1 := fun i => u k.succ i w) (y2 := fun i => u l.succ i w)
        (b := fun i => P.EPOR * (P.Dp i - P.Ds i)) (c := fun i => P.Ds i) he (hu k w) (hu l w) hval hCTpos (htot k l w)
        (fun i hi => mul_nonneg he0 (by have := hDp i hi; linarith)) (fun i hi => hD i hi) (fun i hi => by
          refine c205_uniform g (fun k => P.EPOR * (P.Dp i - P.Ds i) *
            ceq P.K P.val (fun i => u k.succ i w / (1 - P.EPOR)) (∑ j, cin j) i + P.Ds i * u k.succ i w)
            (fun k hk => ?_) k l
          have := hint k hk i w
          simp only [ColModel.bead, psdmBead, implicitRef, if_neg hi, hset, hpc] at this
          have h1 := (div_eq_zero_iff.1 this).resolve_right (pow_ne_zero 2 hrb)
          have h2 := (mul_eq_zero.1 h1).resolve_left htH
          rw [← h2, Finset.mul_sum, Finset.mul_sum, ← Finset.sum_add_distrib]
          exact Finset.sum_congr rfl (fun l _ => by ring))
      exact congrFun this i
  · rintro ⟨hl, hrad, heq⟩ a i w
    have hidem : setInlet (setInlet u cin) cin = setInlet u cin := by
      funext a i w; unfold setInlet; split <;> rfl
    have e : m.rhs P tH cin u = m.rhs P tH cin (setInlet u cin) := by rw [rhs_eq, rhs_eq, hidem]
    rw [e]
    -- the inlet row of the operator is not used
    set P' : ColParams r p z := { P with Az := fun w w' => if w = 0 then 0 else P.Az w w' } with hP'
    have hPP : m.rhs P tH cin (setInlet u cin) = m.rhs P' tH cin (setInlet u cin) := by
      rw [rhs_eq, rhs_eq]
      have e1 : m.flux P' = m.flux P := by cases m <;> rfl
      have e2 : m.bead P' tH = m.bead P tH := by cases m <;> rfl
      rw [e1, e2]
      funext a i w
      refine Fin.cases ?_ (fun k => rfl) a
      rw [assemble_liq, assemble_liq]
      by_cases hw : w = 0
      · rw [if_pos hw, if_pos hw]
      · rw [if_neg hw, if_neg hw]
        unfold liqRate
        simp only [hP', if_neg hw]
    rw [hPP]
    refine c31_steady m P' tH cin (setInlet u cin) (fun w => ?_) g.rows (fun i w => ?_) (fun k l i w => ?_) (fun w i => ?_) a i w
    · by_cases hw : w = 0
      · simp [hP', hw]
      · simp only [hP', if_neg hw]
        have := (hA (fun _ => 1)).2 (fun _ => rfl) w hw
        simpa using this
    · by_cases hw : w = 0
      · rw [hw, hin]
      · rw [hbel i w hw, hl i w hw]
    · rw [hset, hset]; exact hrad k l i w
    · have : ∀ j, m.load P' (u (Fin.last (r + 1)) j w) = m.load P (u (Fin.last (r + 1)) j w) := by
        intro j; cases m <;> rfl
      simp only [hlastset, this]; exact heq w i

/-- A column with two ions, three bead points and one axial step: the resin holds 2 and 3 and the influent 2 and 1. -/
noncomputable def restCol (B : Fin 3 → Fin 3 → ℝ) (W : Fin 3 → ℝ) : ColParams 2 1 1 where
  EBED := 1 / 2
  L := 10
  v := 1
  rb := 1 / 10
  Q := 5
  EPOR := 0
  kL := fun _ => 1
  Ds := fun _ => 1
  Dp := fun _ => 2
  K := ![1, 3]
  val := fun _ => 1
  Az := aMat ![0, 1]
  Br := B
  Wr := W

def restState (c : Fin 2 → ℝ) : ColState 2 1 1 := fun a i _ => if a = 0 then c i else ![2, 3] i

/-- The hypotheses of `c208_column` are met, for both models, by this column with any positive water: it stands still
with the influent as its water and moves with any other. -/
example (m : ColModel) : ∃ (jac : Fin 2 → ℝ) (B : Fin 3 → Fin 3 → ℝ) (W : Fin 3 → ℝ),
    Spec.BeadGrid jac (restCol B W).Br (restCol B W).Wr ∧
    (∀ a i w, m.rhs (restCol B W) 1 ![2, 1] (restState ![2, 1]) a i w = 0) ∧
    ¬ ∀ a i w, m.rhs (restCol B W) 1 ![2, 1] (restState ![1, 2]) a i w = 0 := by
  obtain ⟨jac, B, W, g⟩ := beadGrid_exists 2
  refine ⟨jac, B, W, g, ?_⟩
  have hinj : Function.Injective (![0, 1] : Fin 2 → ℝ) := by
    intro i j h; fin_cases i <;> fin_cases j <;> simp_all
  have hload : ∀ c (k : Fin 3) (w : Fin 2), (fun i => m.load (restCol B W) (restState c k.succ i w)) = ![2, 3] := by
    intro c k w
    funext i
    have e : restState c k.succ i w = (![2, 3] : Fin 2 → ℝ) i := by
      unfold restState; rw [if_neg (Fin.succ_ne_zero k)]
    rw [e]
    cases m
    · rfl
    · show _ / (1 - (0:ℝ)) = _
      rw [sub_zero, div_one]
  have key : ∀ c : Fin 2 → ℝ, (∀ i, 0 < c i) → _ := fun c hc =>
    c208_column m (restCol B W) g (c206_single hinj) (tH := 1) one_ne_zero
      (by show (1 / 10 : ℝ) ≠ 0; norm_num) (by show (1 / 2 : ℝ) ≠ 0; norm_num) (by show (1 : ℝ) ≠ 0; norm_num)
      (by show (10 : ℝ) ≠ 0; norm_num) (fun _ _ => one_pos) (fun _ _ => one_ne_zero)
      (fun _ => ⟨le_rfl, by show (0:ℝ) < 1; norm_num, fun _ _ => by show (1:ℝ) ≤ 2; norm_num⟩)
      (fun _ => Or.inl rfl) ![2, 1] (restState c)
      (fun w => Finset.sum_pos (fun i _ => by
        unfold setInlet restState
        split
        · fin_cases i <;> simp
        · simpa using hc i) Finset.univ_nonempty)
      (fun k w => by
        rw [hload]
        exact ⟨fun i => by fin_cases i <;> simp [restCol], rfl, fun i => by fin_cases i <;> simp, by simp, rfl⟩)
      (fun k l w => by simp [restState])
  constructor
  · refine (key ![2, 1] (fun i => by fin_cases i <;> simp)).2 ⟨fun i w _ => by simp [restState], fun k l i w => by simp [restState], ?_⟩
    intro w i
    show ceq _ _ (fun j => m.load _ (restState ![2, 1] (Fin.last 2).succ j w)) _ i = _
    rw [hload]
    have hval : ¬ ∃ i : Fin 2, (restCol B W).val i = 2 := by rintro ⟨i, hi⟩; cases hi
    unfold ceq
    rw [if_neg hval]
    fin_cases i <;> simp [ceqMv, alphaMat, Fin.sum_univ_two, restCol] <;> norm_num
  · intro h
    have := ((key ![1, 2] (fun i => by fin_cases i <;> simp)).1 h).1 0 1 one_ne_zero
    simp [restState] at this

end WTM
