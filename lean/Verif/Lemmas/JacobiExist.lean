import Mathlib.Topology.Order.IntermediateValue
import Mathlib.Topology.Algebra.Polynomial
import Mathlib.LinearAlgebra.Dual.Lemmas
import Mathlib.RingTheory.Polynomial.DegreeLT
import Verif.Lemmas.Quad

/-! Shifted Jacobi nodes exist: for every `m` and `a > 0` there are `m` distinct points of (0,1) whose
nodal polynomial is orthogonal to lower degrees. -/
set_option autoImplicit false
namespace WTM
open Polynomial BigOperators MeasureTheory

/-- A polynomial whose roots in (0,1) have even multiplicity does not change sign there. -/
theorem sign_const (k : ℕ) : ∀ p : ℝ[X], p ≠ 0 → p.natDegree ≤ k →
    (∀ z, 0 < z → z < 1 → Even (p.rootMultiplicity z)) →
    (∀ t, 0 < t → t < 1 → 0 ≤ p.eval t) ∨ (∀ t, 0 < t → t < 1 → p.eval t ≤ 0) := by
  induction k using Nat.strong_induction_on with
  | _ k ih =>
  intro p hp hk he
  by_cases hr : ∃ z, 0 < z ∧ z < 1 ∧ p.eval z = 0
  · obtain ⟨z, h0, h1, hz⟩ := hr
    have hm : 0 < p.rootMultiplicity z := (rootMultiplicity_pos hp).2 hz
    have h2 : 2 ≤ p.rootMultiplicity z := by
      obtain ⟨c, hc⟩ := he z h0 h1; omega
    obtain ⟨q, hq⟩ := (le_rootMultiplicity_iff hp).1 h2
    have hq0 : q ≠ 0 := by rintro rfl; simp at hq; exact hp hq
    have hX : (X - C z) ^ 2 ≠ 0 := pow_ne_zero _ (X_sub_C_ne_zero z)
    have hd : p.natDegree = 2 + q.natDegree := by
      rw [hq, natDegree_mul hX hq0, natDegree_pow, natDegree_X_sub_C]
    have hq' : ∀ w, 0 < w → w < 1 → Even (q.rootMultiplicity w) := by
      intro w w0 w1
      have h3 := he w w0 w1
      rw [hq, rootMultiplicity_mul (hq ▸ hp)] at h3
      have h4 : ((X - C z) ^ 2 : ℝ[X]).rootMultiplicity w = if w = z then 2 else 0 := by
        by_cases hw : w = z
        · subst hw; rw [if_pos rfl, rootMultiplicity_X_sub_C_pow]
        · rw [if_neg hw, rootMultiplicity_eq_zero]
          simp [IsRoot, sub_ne_zero.2 hw]
      rw [h4] at h3
      by_cases hw : w = z
      · rw [if_pos hw] at h3; rw [Nat.even_add] at h3; exact h3.1 even_two
      · rw [if_neg hw, zero_add] at h3; exact h3
    rcases ih q.natDegree (by omega) q hq0 le_rfl hq' with h | h
    · left; intro t t0 t1; rw [hq]; simp only [eval_mul, eval_pow]
      exact mul_nonneg (sq_nonneg _) (h t t0 t1)
    · right; intro t t0 t1; rw [hq]; simp only [eval_mul, eval_pow]
      exact mul_nonpos_of_nonneg_of_nonpos (sq_nonneg _) (h t t0 t1)
  · push Not at hr
    by_contra hcon
    push Not at hcon
    obtain ⟨⟨s, s0, s1, hs⟩, ⟨t, t0, t1, ht⟩⟩ := hcon
    have hc : ContinuousOn (fun y => p.eval y) (Set.Ioo 0 1) := p.continuous.continuousOn
    have := (isPreconnected_Ioo (a := (0:ℝ)) (b := 1)).intermediate_value (a := s) (b := t)
      ⟨s0, s1⟩ ⟨t0, t1⟩ hc
    obtain ⟨y, hy, hy'⟩ := this ⟨hs.le, ht.le⟩
    exact hr y hy.1 hy.2 hy'

/-- Weighted integral of a nonzero polynomial that is nonnegative on (0,1) is positive. -/
theorem mom_pos {a : ℝ} (ha : 0 < a) {p : ℝ[X]} (hp : p ≠ 0)
    (h : ∀ t, 0 < t → t < 1 → 0 ≤ p.eval t) : 0 < mom a ((C 1 - X) * p) := by
  have hs : (0:ℝ) < a / 2 := by positivity
  obtain ⟨hi, he⟩ := integral_rpow_poly hs ((C 1 - X) * p)
  rw [sum_half] at he
  suffices hI : 0 < ∫ x in (0:ℝ)..1, x ^ (a / 2 - 1) * ((C 1 - X) * p).eval x by linarith
  have hae : 0 ≤ᵐ[volume.restrict (Set.uIoc 0 1)]
      (fun x : ℝ => x ^ (a / 2 - 1) * ((C 1 - X) * p).eval x) := by
    rw [Set.uIoc_of_le zero_le_one]
    refine (ae_restrict_mem measurableSet_Ioc).mono ?_
    intro x hx
    simp only [Pi.zero_apply, eval_mul, eval_sub, eval_C, eval_X]
    rcases eq_or_lt_of_le hx.2 with h1 | h1
    · rw [h1]; simp
    · exact mul_nonneg (Real.rpow_nonneg hx.1.le _) (mul_nonneg (by linarith) (h x hx.1 h1))
  rw [intervalIntegral.integral_pos_iff_support_of_nonneg_ae' hae hi]
  refine ⟨zero_lt_one, ?_⟩
  have hsub : Set.Ioo (0:ℝ) 1 \ (p.roots.toFinset : Set ℝ) ⊆
      Function.support (fun x : ℝ => x ^ (a / 2 - 1) * ((C 1 - X) * p).eval x) ∩ Set.Ioc 0 1 := by
    intro x hx
    refine ⟨?_, hx.1.1, hx.1.2.le⟩
    simp only [Function.mem_support, eval_mul, eval_sub, eval_C, eval_X]
    refine mul_ne_zero (Real.rpow_pos_of_pos hx.1.1 _).ne' (mul_ne_zero (by linarith [hx.1.2]) ?_)
    intro h0
    exact hx.2 (by simp [hp, h0])
  refine lt_of_lt_of_le ?_ (measure_mono hsub)
  rw [measure_sdiff_null (Set.Finite.measure_zero (Finset.finite_toSet _) _)]
  simp

theorem mom_neg_iff {a : ℝ} (p : ℝ[X]) : mom a ((C 1 - X) * p) = - mom a ((X - C 1) * p) := by
  rw [← map_neg]; congr 1; ring

/-- A functional that is positive on polynomials nonnegative on (0,1). -/
def PosOn (φ : ℝ[X] →ₗ[ℝ] ℝ) : Prop := ∀ p : ℝ[X], p ≠ 0 → (∀ t, 0 < t → t < 1 → 0 ≤ p.eval t) → 0 < φ p

/-- Monic orthogonal polynomial. -/
theorem exists_orth {φ : ℝ[X] →ₗ[ℝ] ℝ} (hφ : PosOn φ) (m : ℕ) :
    ∃ J : ℝ[X], J.Monic ∧ J.natDegree = m ∧ ∀ g : ℝ[X], g.degree < m → φ (J * g) = 0 := by
  let V := Polynomial.degreeLT ℝ m
  let B : V →ₗ[ℝ] Module.Dual ℝ V :=
    LinearMap.mk₂ ℝ (fun r s : V => φ ((r : ℝ[X]) * (s : ℝ[X])))
      (by intro r r' s; rw [← map_add]; congr 1; push_cast; ring)
      (by intro c r s
          rw [← map_smul]; congr 1
          simp only [Submodule.coe_smul, smul_eq_C_mul]; ring)
      (by intro r s s'; rw [← map_add]; congr 1; push_cast; ring)
      (by intro c r s
          rw [← map_smul]; congr 1
          simp only [Submodule.coe_smul, smul_eq_C_mul]; ring)
  have hinj : Function.Injective B := by
    rw [← LinearMap.ker_eq_bot, LinearMap.ker_eq_bot']
    intro r hr
    by_contra hne
    have hne' : (r : ℝ[X]) ≠ 0 := fun h => hne (Subtype.ext h)
    have h1 : φ ((r : ℝ[X]) * (r : ℝ[X])) = 0 := by
      have := congrArg (fun φ : Module.Dual ℝ V => φ r) hr
      exact this
    have h2 := hφ _ (mul_ne_zero hne' hne') (by
      intro t _ _; rw [eval_mul]; exact mul_self_nonneg _)
    linarith
  have : FiniteDimensional ℝ V := by
    have e := Polynomial.degreeLTEquiv ℝ m
    exact LinearEquiv.finiteDimensional e.symm
  have hsurj : Function.Surjective B :=
    (LinearMap.injective_iff_surjective_of_finrank_eq_finrank (Subspace.dual_finrank_eq).symm).1 hinj
  let ψ : Module.Dual ℝ V := φ ∘ₗ (LinearMap.mulLeft ℝ (X ^ m : ℝ[X])) ∘ₗ V.subtype
  obtain ⟨r, hr⟩ := hsurj (-ψ)
  have hrd : (r : ℝ[X]).degree < m := Polynomial.mem_degreeLT.1 r.2
  refine ⟨X ^ m + (r : ℝ[X]), monic_X_pow_add hrd, ?_, ?_⟩
  · apply natDegree_eq_of_degree_eq_some
    rw [degree_add_eq_left_of_degree_lt (by rwa [degree_X_pow]), degree_X_pow]
  · intro g hg
    have h1 := congrArg (fun θ : Module.Dual ℝ V => θ ⟨g, Polynomial.mem_degreeLT.2 hg⟩) hr
    have h2 : φ ((r : ℝ[X]) * g) = - φ (X ^ m * g) := h1
    rw [add_mul, map_add, h2]; ring

/-- Its zeros are `m` points of (0,1). -/
theorem orth_nodes {φ : ℝ[X] →ₗ[ℝ] ℝ} (hφ : PosOn φ) (m : ℕ) :
    ∃ jac : Fin m → ℝ, StrictMono jac ∧ (∀ i, 0 < jac i ∧ jac i < 1) ∧
      ∀ g : ℝ[X], g.degree < m → φ (nod jac * g) = 0 := by
  classical
  obtain ⟨J, hm, hd, ho⟩ := exists_orth hφ m
  set S := J.roots.toFinset.filter (fun z => (0 < z ∧ z < 1) ∧ Odd (J.rootMultiplicity z)) with hS
  set r : ℝ[X] := ∏ z ∈ S, (X - C z) with hr
  have hrm : r.Monic := monic_prod_of_monic _ _ (fun z _ => monic_X_sub_C z)
  have hrd : r.natDegree = S.card := by
    rw [hr, natDegree_prod_of_monic _ _ (fun z _ => monic_X_sub_C z)]; simp
  have hrr : r.roots = S.val := by
    have := roots_prod_X_sub_C S; exact this
  have hcard : m ≤ S.card := by
    by_contra hlt
    push Not at hlt
    have h0 := ho r (by rw [degree_eq_natDegree hrm.ne_zero, hrd]; exact_mod_cast hlt)
    have hne : J * r ≠ 0 := mul_ne_zero hm.ne_zero hrm.ne_zero
    have hev : ∀ z, 0 < z → z < 1 → Even ((J * r).rootMultiplicity z) := by
      intro z z0 z1
      rw [rootMultiplicity_mul hne]
      have hrz : r.rootMultiplicity z = if z ∈ S then 1 else 0 := by
        rw [← count_roots, hrr]
        by_cases hz : z ∈ S
        · rw [if_pos hz]; exact Multiset.count_eq_one_of_mem S.nodup hz
        · rw [if_neg hz]; exact Multiset.count_eq_zero_of_notMem hz
      rw [hrz]
      by_cases hz : z ∈ S
      · rw [if_pos hz]; exact ((Finset.mem_filter.1 hz).2.2).add_odd odd_one
      · rw [if_neg hz, add_zero]
        by_contra hodd
        rw [Nat.not_even_iff_odd] at hodd
        apply hz
        rw [hS, Finset.mem_filter]
        refine ⟨?_, ⟨z0, z1⟩, hodd⟩
        rw [Multiset.mem_toFinset, mem_roots hm.ne_zero]
        exact (rootMultiplicity_pos hm.ne_zero).1 hodd.pos
    rcases sign_const _ (J * r) hne le_rfl hev with h | h
    · have := hφ _ hne h; linarith
    · have h1 := hφ (-(J * r)) (neg_ne_zero.2 hne) (by
        intro t t0 t1; rw [eval_neg]; linarith [h t t0 t1])
      rw [map_neg] at h1
      linarith
  have hcard' : S.card = m := by
    refine le_antisymm ?_ hcard
    calc S.card ≤ J.roots.toFinset.card := Finset.card_filter_le _ _
      _ ≤ Multiset.card J.roots := Multiset.toFinset_card_le _
      _ ≤ J.natDegree := card_roots' J
      _ = m := hd
  have hdvd : r ∣ J := by
    have h1 : (S.val.map (fun z => X - C z)).prod ∣ J := by
      rw [Multiset.prod_X_sub_C_dvd_iff_le_roots hm.ne_zero]
      refine le_trans ?_ (Multiset.dedup_le J.roots)
      have : S ⊆ J.roots.toFinset := Finset.filter_subset _ _
      exact Finset.val_le_iff.2 this
    exact h1
  have hJr : J = r := by
    apply eq_of_monic_of_dvd_of_natDegree_le hrm hm hdvd
    rw [hd, hrd, hcard']
  let jac : Fin m → ℝ := S.orderEmbOfFin hcard'
  have hmem : ∀ i, jac i ∈ S := fun i => Finset.orderEmbOfFin_mem S hcard' i
  have hnod : nod jac = J := by
    rw [hJr, hr]
    unfold nod
    rw [Lagrange.nodal_eq]
    conv_rhs => rw [← Finset.map_orderEmbOfFin_univ S hcard']
    rw [Finset.prod_map]
    rfl
  exact ⟨jac, (S.orderEmbOfFin hcard').strictMono, fun i => (Finset.mem_filter.1 (hmem i)).2.1,
    fun g hg => by rw [hnod]; exact ho g hg⟩

theorem jacobi_exists (m : ℕ) {a : ℝ} (ha : 0 < a) :
    ∃ jac : Fin m → ℝ, Spec.ShJacobiRoots m (a / 2 + 1) (a / 2) jac ∧ StrictMono jac := by
  obtain ⟨jac, hs, h01, ho⟩ := orth_nodes (φ := (mom a) ∘ₗ (LinearMap.mulLeft ℝ (C 1 - X : ℝ[X])))
    (fun p hp h => mom_pos ha hp h) m
  refine ⟨jac, ⟨hs.injective, h01, ?_⟩, hs⟩
  intro g hg
  have h1 : mom a ((C 1 - X) * (nod jac * g)) = 0 := ho g hg
  have e : (fun u : ℝ => (1 - u) ^ (a / 2 + 1 - a / 2) * u ^ (a / 2 - 1) * ((∏ i, (u - jac i)) * g.eval u))
      = fun u => u ^ (a / 2 - 1) * ((C 1 - X) * (nod jac * g)).eval u := by
    funext u
    have : a / 2 + 1 - a / 2 = (1:ℝ) := by ring
    rw [this, Real.rpow_one]
    simp only [eval_mul, eval_sub, eval_X, eval_C, nod, Lagrange.eval_nodal]
    ring
  rw [e, (integral_rpow_poly (by positivity) _).2, sum_half, h1, mul_zero]

end WTM
