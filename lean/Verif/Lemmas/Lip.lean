import Mathlib.Analysis.SpecialFunctions.Pow.Deriv
import Mathlib.Topology.MetricSpace.Lipschitz
import Mathlib.Topology.Algebra.MetricSpace.Lipschitz
import Verif.Lemmas.Unique

/-! Functions that are locally Lipschitz: sums, products, powers, and a share of a power of a total. -/
set_option autoImplicit false
namespace WTM
open BigOperators Set Topology

variable {E : Type} [PseudoEMetricSpace E] {f g : E → ℝ}

theorem lip_add (hf : LocallyLipschitz f) (hg : LocallyLipschitz g) : LocallyLipschitz fun x => f x + g x :=
  (contDiff_fst.add contDiff_snd : ContDiff ℝ 1 fun x : ℝ × ℝ => x.1 + x.2).locallyLipschitz.comp (hf.prodMk hg)

theorem lip_sub (hf : LocallyLipschitz f) (hg : LocallyLipschitz g) : LocallyLipschitz fun x => f x - g x :=
  (contDiff_fst.sub contDiff_snd : ContDiff ℝ 1 fun x : ℝ × ℝ => x.1 - x.2).locallyLipschitz.comp (hf.prodMk hg)

theorem lip_mul (hf : LocallyLipschitz f) (hg : LocallyLipschitz g) : LocallyLipschitz fun x => f x * g x :=
  (contDiff_fst.mul contDiff_snd : ContDiff ℝ 1 fun x : ℝ × ℝ => x.1 * x.2).locallyLipschitz.comp (hf.prodMk hg)

theorem lip_const (c : ℝ) : LocallyLipschitz fun _ : E => c := LocallyLipschitz.const c

theorem lip_div (hf : LocallyLipschitz f) (c : ℝ) : LocallyLipschitz fun x => f x / c := by
  simpa [div_eq_mul_inv] using lip_mul hf (lip_const c⁻¹)

theorem lip_neg (hf : LocallyLipschitz f) : LocallyLipschitz fun x => -f x := by
  simpa using lip_sub (lip_const 0) hf

theorem lip_sum {ι : Type} (s : Finset ι) {F : ι → E → ℝ} (h : ∀ i ∈ s, LocallyLipschitz (F i)) :
    LocallyLipschitz fun x => ∑ i ∈ s, F i x := by
  classical
  induction s using Finset.induction_on with
  | empty => simpa using lip_const (E := E) 0
  | insert a s ha ih =>
    simp only [Finset.sum_insert ha]
    exact lip_add (h a (Finset.mem_insert_self _ _)) (ih fun i hi => h i (Finset.mem_insert_of_mem hi))

theorem lip_pi {ι : Type} [Fintype ι] {X : ι → Type} [∀ i, PseudoEMetricSpace (X i)] {Y : Type} [PseudoEMetricSpace Y]
    {F : Y → ∀ i, X i} (h : ∀ i, LocallyLipschitz fun x => F x i) : LocallyLipschitz F := by
  intro x
  choose K s hs hL using fun i => h i x
  refine ⟨∑ i, K i, ⋂ i, s i, Filter.iInter_mem.2 hs, fun y hy z hz => ?_⟩
  rw [edist_pi_le_iff]
  intro i
  refine (hL i (mem_iInter.1 hy i) (mem_iInter.1 hz i)).trans ?_
  gcongr
  exact Finset.single_le_sum (f := K) (fun _ _ => zero_le) (Finset.mem_univ i)

theorem lip_rpow {p : ℝ} (hp : 1 ≤ p) (hf : LocallyLipschitz f) : LocallyLipschitz fun x => f x ^ p :=
  (Real.contDiff_rpow_const_of_le (n := 1) (by simpa using hp)).locallyLipschitz.comp hf

/-- A power with exponent at least one is Lipschitz on an interval from zero. -/
theorem rpow_lip {p : ℝ} (hp : 1 ≤ p) (R : ℝ) : ∃ K : ℝ, 0 ≤ K ∧
    ∀ a b, 0 ≤ a → a ≤ R → 0 ≤ b → b ≤ R → |a ^ p - b ^ p| ≤ K * |a - b| := by
  obtain ⟨K, hK⟩ := ((Real.contDiff_rpow_const_of_le (p := p) (n := 1) (by simpa using hp)).locallyLipschitz
    |>.locallyLipschitzOn (s := Icc 0 R)).exists_lipschitzOnWith_of_compact isCompact_Icc
  refine ⟨K, K.2, fun a b ha1 ha2 hb1 hb2 => ?_⟩
  have := hK.dist_le_mul a ⟨ha1, ha2⟩ b ⟨hb1, hb2⟩
  simpa [Real.dist_eq] using this

variable {n : ℕ}

/-- The share of `i` in the total times a power of a weighted total. -/
theorem share_lip {c : Fin n → ℝ} (hc : ∀ j, 0 ≤ c j) {p : ℝ} (hp : 1 ≤ p) (i : Fin n) (R : ℝ) : ∃ K : ℝ, 0 ≤ K ∧
    ∀ z w : Fin n → ℝ, (∀ j, 0 ≤ z j) → (∀ j, 0 ≤ w j) → ∑ j, z j ≤ R → ∑ j, w j ≤ R →
      |z i / (∑ j, z j) * (∑ j, c j * z j) ^ p - w i / (∑ j, w j) * (∑ j, c j * w j) ^ p| ≤ K * ∑ j, |z j - w j| := by
  set b := ∑ j, c j with hb
  have hb0 : 0 ≤ b := Finset.sum_nonneg fun j _ => hc j
  have hcb : ∀ j, c j ≤ b := fun j => Finset.single_le_sum (fun j _ => hc j) (Finset.mem_univ j)
  obtain ⟨L, hL0, hL⟩ := rpow_lip hp (b * R)
  have hp0 : p ≠ 0 := by linarith
  have hY : ∀ z : Fin n → ℝ, (∀ j, 0 ≤ z j) → 0 ≤ ∑ j, c j * z j ∧ ∑ j, c j * z j ≤ b * ∑ j, z j := by
    intro z hz
    refine ⟨Finset.sum_nonneg fun j _ => mul_nonneg (hc j) (hz j), ?_⟩
    rw [Finset.mul_sum]
    exact Finset.sum_le_sum fun j _ => mul_le_mul_of_nonneg_right (hcb j) (hz j)
  have hzero : ∀ z : Fin n → ℝ, (∀ j, 0 ≤ z j) → ∑ j, z j = 0 → ∀ j, z j = 0 := fun z hz h j =>
    (Finset.sum_eq_zero_iff_of_nonneg (fun j _ => hz j)).1 h j (Finset.mem_univ j)
  have hU : ∀ z : Fin n → ℝ, (∀ j, 0 ≤ z j) → ∑ j, z j ≤ R →
      0 ≤ (∑ j, c j * z j) ^ p ∧ (∑ j, c j * z j) ^ p ≤ L * b * ∑ j, z j := by
    intro z hz hR
    obtain ⟨h1, h2⟩ := hY z hz
    have hzR : 0 ≤ R := (Finset.sum_nonneg fun j _ => hz j).trans hR
    have h3 := hL _ 0 h1 (h2.trans (mul_le_mul_of_nonneg_left hR hb0)) le_rfl (mul_nonneg hb0 hzR)
    rw [Real.zero_rpow hp0, sub_zero, sub_zero, abs_of_nonneg h1, abs_of_nonneg (Real.rpow_nonneg h1 p)] at h3
    refine ⟨Real.rpow_nonneg h1 p, h3.trans ?_⟩
    rw [mul_assoc]
    exact mul_le_mul_of_nonneg_left h2 hL0
  have hshare : ∀ z : Fin n → ℝ, (∀ j, 0 ≤ z j) → 0 ≤ z i / ∑ j, z j ∧ z i / ∑ j, z j ≤ 1 := by
    intro z hz
    have hS : 0 ≤ ∑ j, z j := Finset.sum_nonneg fun j _ => hz j
    exact ⟨div_nonneg (hz i) hS, div_le_one_of_le₀ (Finset.single_le_sum (fun j _ => hz j) (Finset.mem_univ i)) hS⟩
  have hone : ∀ z w : Fin n → ℝ, (∀ j, 0 ≤ z j) → (∀ j, 0 ≤ w j) → ∑ j, z j ≤ R → ∑ j, w j = 0 →
      |z i / (∑ j, z j) * (∑ j, c j * z j) ^ p - w i / (∑ j, w j) * (∑ j, c j * w j) ^ p| ≤
        3 * (L * b) * ∑ j, |z j - w j| := by
    intro z w hz hw hzR hw0
    have hw' := hzero w hw hw0
    simp only [hw', zero_div, zero_mul, sub_zero, abs_of_nonneg (hz _)]
    obtain ⟨h1, h2⟩ := hU z hz hzR
    obtain ⟨h3, h4⟩ := hshare z hz
    have hS : 0 ≤ ∑ j, z j := Finset.sum_nonneg fun j _ => hz j
    rw [abs_of_nonneg (mul_nonneg h3 h1)]
    have h5 := mul_le_of_le_one_left h1 h4
    have h6 : 0 ≤ L * b * ∑ j, z j := by positivity
    linarith
  refine ⟨3 * (L * b), by positivity, fun z w hz hw hzR hwR => ?_⟩
  by_cases hw0 : ∑ j, w j = 0
  · exact hone z w hz hw hzR hw0
  by_cases hz0 : ∑ j, z j = 0
  · have := hone w z hw hz hwR hz0
    rw [abs_sub_comm]
    refine this.trans (le_of_eq ?_)
    simp only [abs_sub_comm]
  have hSw : 0 < ∑ j, w j := lt_of_le_of_ne (Finset.sum_nonneg fun j _ => hw j) (Ne.symm hw0)
  have hSz : 0 < ∑ j, z j := lt_of_le_of_ne (Finset.sum_nonneg fun j _ => hz j) (Ne.symm hz0)
  set d := ∑ j, |z j - w j| with hd
  have hd0 : 0 ≤ d := Finset.sum_nonneg fun j _ => abs_nonneg _
  have hdi : |z i - w i| ≤ d := Finset.single_le_sum (f := fun j => |z j - w j|) (fun j _ => abs_nonneg _) (Finset.mem_univ i)
  have hdS : |∑ j, w j - ∑ j, z j| ≤ d := by
    rw [← Finset.sum_sub_distrib]
    refine (Finset.abs_sum_le_sum_abs _ _).trans (le_of_eq ?_)
    simp only [hd, abs_sub_comm]
  have hdY : |∑ j, c j * z j - ∑ j, c j * w j| ≤ b * d := by
    rw [← Finset.sum_sub_distrib, hd, Finset.mul_sum]
    refine (Finset.abs_sum_le_sum_abs _ _).trans (Finset.sum_le_sum fun j _ => ?_)
    rw [← mul_sub, abs_mul, abs_of_nonneg (hc j)]
    exact mul_le_mul_of_nonneg_right (hcb j) (abs_nonneg _)
  obtain ⟨hz1, hz2⟩ := hY z hz
  obtain ⟨hw1, hw2⟩ := hY w hw
  have hUd := hL _ _ hz1 (hz2.trans (mul_le_mul_of_nonneg_left hzR hb0)) hw1 (hw2.trans (mul_le_mul_of_nonneg_left hwR hb0))
  obtain ⟨u1, u2⟩ := hU w hw hwR
  obtain ⟨s1, s2⟩ := hshare z hz
  set U := (∑ j, c j * z j) ^ p
  set V := (∑ j, c j * w j) ^ p
  set Sz := ∑ j, z j
  set Sw := ∑ j, w j
  have e : z i / Sz * U - w i / Sw * V = z i / Sz * (U - V) + V / Sw * ((z i - w i) + z i / Sz * (Sw - Sz)) := by
    field_simp
    ring
  rw [e]
  have hV : 0 ≤ V / Sw ∧ V / Sw ≤ L * b := ⟨div_nonneg u1 hSw.le, (div_le_iff₀ hSw).2 u2⟩
  have h1 : |z i / Sz * (U - V)| ≤ L * (b * d) := by
    rw [abs_mul, abs_of_nonneg s1]
    exact (mul_le_of_le_one_left (abs_nonneg _) s2).trans (hUd.trans (mul_le_mul_of_nonneg_left hdY hL0))
  have h2 : |z i - w i + z i / Sz * (Sw - Sz)| ≤ 2 * d := by
    refine (abs_add_le _ _).trans ?_
    rw [abs_mul, abs_of_nonneg s1]
    have := mul_le_of_le_one_left (abs_nonneg (Sw - Sz)) s2
    linarith
  have h3 : |V / Sw * ((z i - w i) + z i / Sz * (Sw - Sz))| ≤ L * b * (2 * d) := by
    rw [abs_mul, abs_of_nonneg hV.1]
    exact mul_le_mul hV.2 h2 (abs_nonneg _) (by positivity)
  refine (abs_add_le _ _).trans ?_
  linarith

end WTM
