import Mathlib.Tactic.Linarith
import Mathlib.Tactic.FieldSimp
import Mathlib.Tactic.LinearCombination
import Mathlib.Tactic.FinCases
import Mathlib.Algebra.BigOperators.Field
import Verif.Model.Equil

/-! Properties C22-C27: local equilibrium. -/
set_option autoImplicit false
namespace WTM
open BigOperators

variable {p : ℕ}

/-! ### Specification -/
namespace Spec

/-- Law of mass action against the reference ion 0, written without division so that it also makes
sense for a zero reference concentration: `K_i C_i q_0^z = q_i C_0^z`. -/
def Selectivity (K : Fin (p + 1) → ℝ) (val : Fin (p + 1) → ℕ) (q C : Fin (p + 1) → ℝ) : Prop :=
  ∀ i, K i * C i * q 0 ^ val i = q i * C 0 ^ val i

/-- All charge in the liquid is accounted for. -/
def Neutral (C : Fin (p + 1) → ℝ) (CT : ℝ) : Prop := ∑ i, C i = CT

end Spec

/-! ### C22 -/

theorem mv_denom {K q : Fin (p + 1) → ℝ} (i : Fin (p + 1)) :
    ∑ j, alphaMat K i j * q j = K i * ∑ j, q j / K j := by
  rw [Finset.mul_sum]
  exact Finset.sum_congr rfl (fun j _ => by unfold alphaMat; ring)

/-- Sum of loadings over selectivities is positive. -/
theorem loading_pos {K q : Fin (p + 1) → ℝ} (hK : ∀ i, 0 < K i) (hq : ∀ i, 0 ≤ q i)
    (hne : ∃ i, q i ≠ 0) : 0 < ∑ j, q j / K j := by
  obtain ⟨i, hi⟩ := hne
  exact Finset.sum_pos' (fun j _ => div_nonneg (hq j) (hK j).le)
    ⟨i, Finset.mem_univ i, div_pos (lt_of_le_of_ne (hq i) (Ne.symm hi)) (hK i)⟩

/-- C22. No divalent ion: the surface concentrations sum to the local total, every pair obeys
`q_i C_j = (K_i/K_j) q_j C_i`, and all are nonnegative. -/
theorem c22_monovalent {K : Fin (p + 1) → ℝ} {val : Fin (p + 1) → ℕ} {q : Fin (p + 1) → ℝ} {CT : ℝ}
    (hK : ∀ i, 0 < K i) (hq : ∀ i, 0 ≤ q i) (hne : ∃ i, q i ≠ 0) (hCT : 0 ≤ CT)
    (hval : ∀ i, val i ≠ 2) :
    Spec.Neutral (ceq K val q CT) CT ∧
    (∀ i j, q i * ceq K val q CT j = K i / K j * (q j * ceq K val q CT i)) ∧
    ∀ i, 0 ≤ ceq K val q CT i := by
  have e : ceq K val q CT = ceqMv K q CT := by
    unfold ceq; rw [if_neg (by rintro ⟨i, hi⟩; exact hval i hi)]
  have hS := loading_pos hK hq hne
  have hform : ∀ i, ceqMv K q CT i = q i / K i * (CT / ∑ j, q j / K j) := by
    intro i
    unfold ceqMv
    rw [mv_denom]
    have := (hK i).ne'
    have := hS.ne'
    field_simp
  rw [e]
  refine ⟨?_, ?_, ?_⟩
  · unfold Spec.Neutral
    simp only [hform]
    rw [← Finset.sum_mul, mul_div_cancel₀ _ hS.ne']
  · intro i j
    rw [hform, hform]
    have := (hK i).ne'
    have := (hK j).ne'
    field_simp
  · intro i
    rw [hform]
    exact mul_nonneg (div_nonneg (hq i) (hK i).le) (div_nonneg hCT hS.le)

example : ∃ (K q : Fin 3 → ℝ) (val : Fin 3 → ℕ), (∀ i, 0 < K i) ∧ (∀ i, 0 ≤ q i) ∧ (∃ i, q i ≠ 0) ∧
    (∀ i, val i ≠ 2) ∧ val 1 = 1 :=
  ⟨![1, 3, 2], ![5, 0, 1], fun _ => 1, by intro i; fin_cases i <;> simp, by intro i; fin_cases i <;> simp,
    ⟨0, by simp⟩, by simp, rfl⟩

/-! ### C23 -/

/-- Hypotheses on the ion table and resin for the divalent formula. -/
structure DvOk (K : Fin (p + 1) → ℝ) (val : Fin (p + 1) → ℕ) (q : Fin (p + 1) → ℝ) : Prop where
  Kpos : ∀ i, 0 < K i
  Kref : K 0 = 1
  qnonneg : ∀ i, 0 ≤ q i
  qref : 0 < q 0
  valRef : val 0 = 1

variable {K : Fin (p + 1) → ℝ} {val : Fin (p + 1) → ℕ} {q : Fin (p + 1) → ℝ} {CT : ℝ}

theorem eqAA_nonneg (h : DvOk K val q) : 0 ≤ eqAA K val q := by
  unfold eqAA
  refine div_nonneg (Finset.sum_nonneg (fun i _ => ?_)) (sq_nonneg _)
  split
  · exact div_nonneg (h.qnonneg i) (h.Kpos i).le
  · exact le_rfl

theorem eqBB_ge (h : DvOk K val q) : 1 ≤ eqBB K val q := by
  unfold eqBB
  have : 0 ≤ (∑ i, if val i = 1 ∧ i ≠ 0 then q i / K i else 0) / q 0 := by
    refine div_nonneg (Finset.sum_nonneg (fun i _ => ?_)) h.qref.le
    split
    · exact div_nonneg (h.qnonneg i) (h.Kpos i).le
    · exact le_rfl
  linarith

/-- The reference concentration solves the quadratic and is nonnegative; it is the only nonnegative
solution. -/
theorem quad_root {a b c : ℝ} (ha : 0 ≤ a) (hb : 1 ≤ b) (hc : 0 ≤ c) :
    let x := 2 * (-c) / (-b - Real.sqrt (b ^ 2 - 4 * a * (-c)))
    a * x ^ 2 + b * x = c ∧ 0 ≤ x ∧ (0 < c → 0 < x) ∧ x ≤ c ∧
      ∀ y, 0 ≤ y → a * y ^ 2 + b * y = c → y = x := by
  intro x
  have hd : 0 ≤ b ^ 2 - 4 * a * (-c) := by nlinarith [mul_nonneg ha hc, sq_nonneg b]
  set s := Real.sqrt (b ^ 2 - 4 * a * (-c)) with hs
  have hs0 : 0 ≤ s := Real.sqrt_nonneg _
  have hsq : s ^ 2 = b ^ 2 - 4 * a * (-c) := Real.sq_sqrt hd
  have hden : 0 < b + s := by linarith
  have hx : x = 2 * c / (b + s) := by
    show 2 * (-c) / (-b - s) = _
    rw [show (-b - s) = -(b + s) by ring, show 2 * (-c) = -(2 * c) by ring, neg_div_neg_eq]
  have hx0 : 0 ≤ x := by rw [hx]; positivity
  have hroot : a * x ^ 2 + b * x = c := by
    rw [hx]
    have := hden.ne'
    field_simp
    nlinarith [hsq]
  refine ⟨hroot, hx0, ?_, ?_, ?_⟩
  · intro hc'; rw [hx]; positivity
  · nlinarith [mul_nonneg ha (sq_nonneg x)]
  · intro y hy hyr
    have h1 : (y - x) * (a * (y + x) + b) = 0 := by linear_combination hyr - hroot
    rcases mul_eq_zero.1 h1 with h2 | h2
    · linarith
    · have : 0 < a * (y + x) + b := by
        have := mul_nonneg ha (add_nonneg hy hx0)
        linarith
      linarith

/-- Sum of the concentrations built from a reference concentration: exact value for any valences. -/
theorem ceqOfRef_sum (h : DvOk K val q) (c : ℝ) :
    ∑ i, ceqOfRef K val q c i = eqAA K val q * c ^ 2 + eqBB K val q * c +
      ∑ i, if val i ≠ 1 ∧ val i ≠ 2 then ceqOfRef K val q c i else 0 := by
  have hq0 := h.qref.ne'
  have e1 : eqAA K val q * c ^ 2 = ∑ i, if val i = 2 then ceqOfRef K val q c i else 0 := by
    unfold eqAA
    rw [div_mul_eq_mul_div, Finset.sum_mul, Finset.sum_div]
    apply Finset.sum_congr rfl
    intro i _
    by_cases hv : val i = 2
    · have hi : i ≠ 0 := by rintro rfl; rw [h.valRef] at hv; omega
      rw [if_pos hv, if_pos hv, ceqOfRef, if_neg hi, hv, div_pow]; ring
    · rw [if_neg hv, if_neg hv]; ring
  have e2 : eqBB K val q * c = ∑ i, if val i = 1 then ceqOfRef K val q c i else 0 := by
    unfold eqBB
    rw [add_mul, one_mul, div_mul_eq_mul_div, Finset.sum_mul, Finset.sum_div]
    have : c = ∑ i : Fin (p + 1), if i = 0 then c else 0 := by simp
    conv_lhs => rw [this]
    rw [← Finset.sum_add_distrib]
    apply Finset.sum_congr rfl
    intro i _
    by_cases hi : i = 0
    · subst hi
      simp [h.valRef, ceqOfRef]
    · rw [if_neg hi, add_zero]
      by_cases hv : val i = 1
      · rw [if_pos ⟨hv, hi⟩, if_pos hv, ceqOfRef, if_neg hi, hv, pow_one]
        simp only [hi, if_false, Finset.sum_ite_eq', Finset.mem_univ, if_true]
        ring
      · rw [if_neg (fun h => hv h.1), if_neg hv]; simp
  rw [e1, e2, ← Finset.sum_add_distrib, ← Finset.sum_add_distrib]
  apply Finset.sum_congr rfl
  intro i _
  by_cases h1 : val i = 1
  · simp [h1]
  · by_cases h2 : val i = 2
    · simp [h2]
    · simp [h1, h2]

theorem ceqOfRef_select (h : DvOk K val q) (c : ℝ) : Spec.Selectivity K val q (ceqOfRef K val q c) := by
  intro i
  have hq0 := h.qref.ne'
  have hK := (h.Kpos i).ne'
  by_cases hi : i = 0
  · subst hi
    simp only [ceqOfRef, if_true, h.valRef, h.Kref, pow_one]; ring
  · simp only [ceqOfRef, hi, if_true, if_false, div_pow]
    field_simp

theorem refConc_spec (h : DvOk K val q) (hCT : 0 ≤ CT) :
    eqAA K val q * refConc K val q CT ^ 2 + eqBB K val q * refConc K val q CT = CT ∧
    0 ≤ refConc K val q CT ∧ (0 < CT → 0 < refConc K val q CT) ∧ refConc K val q CT ≤ CT ∧
    ∀ y, 0 ≤ y → eqAA K val q * y ^ 2 + eqBB K val q * y = CT → y = refConc K val q CT :=
  quad_root (eqAA_nonneg h) (eqBB_ge h) hCT

/-- C23. Ions of valence 1 or 2, monovalent reference of selectivity 1 with positive loading: the
surface concentrations sum to the total, obey the selectivity law, are nonnegative, and the reference
lies in (0, CT]. -/
theorem c23_divalent (h : DvOk K val q) (hval : ∀ i, val i = 1 ∨ val i = 2) (hdv : ∃ i, val i = 2)
    (hCT : 0 < CT) :
    Spec.Neutral (ceq K val q CT) CT ∧
    (∀ i, q i = K i * ceq K val q CT i * (q 0 / ceq K val q CT 0) ^ val i) ∧
    (∀ i, 0 ≤ ceq K val q CT i) ∧ 0 < ceq K val q CT 0 ∧ ceq K val q CT 0 ≤ CT := by
  have e : ceq K val q CT = ceqOfRef K val q (refConc K val q CT) := by
    unfold ceq ceqDv; rw [if_pos hdv]
  obtain ⟨r1, r2, r3, r4, -⟩ := refConc_spec h hCT.le
  have hpos := r3 hCT
  have h0 : ceqOfRef K val q (refConc K val q CT) 0 = refConc K val q CT := by simp [ceqOfRef]
  rw [e]
  refine ⟨?_, ?_, ?_, by rw [h0]; exact hpos, by rw [h0]; exact r4⟩
  · unfold Spec.Neutral
    rw [ceqOfRef_sum h, r1, Finset.sum_eq_zero, add_zero]
    intro i _
    rw [if_neg]
    rcases hval i with h' | h' <;> simp [h']
  · intro i
    have hs := ceqOfRef_select h (refConc K val q CT) i
    rw [h0] at hs ⊢
    rw [div_pow, mul_div_assoc', hs]
    have := (pow_pos hpos (val i)).ne'
    field_simp
  · intro i
    unfold ceqOfRef
    split
    · exact r2
    · exact mul_nonneg (div_nonneg (h.qnonneg i) (h.Kpos i).le)
        (pow_nonneg (div_nonneg r2 h.qref.le) _)

example : ∃ (K q : Fin 3 → ℝ) (val : Fin 3 → ℕ), DvOk K val q ∧ (∀ i, val i = 1 ∨ val i = 2) ∧
    ∃ i, val i = 2 :=
  ⟨![1, 3, 2], ![5, 0, 1], ![1, 1, 2],
    ⟨by intro i; fin_cases i <;> simp, rfl, by intro i; fin_cases i <;> simp, by simp, rfl⟩,
    by intro i; fin_cases i <;> simp, ⟨2, rfl⟩⟩

/-! ### C24 -/

/-- C24. There is exactly one set of concentrations with nonnegative reference that obeys the
selectivity law and sums to the total: the computed one. -/
theorem c24_unique (h : DvOk K val q) (hval : ∀ i, val i = 1 ∨ val i = 2) (hdv : ∃ i, val i = 2)
    (hCT : 0 < CT) :
    Spec.Selectivity K val q (ceq K val q CT) ∧
    ∀ C : Fin (p + 1) → ℝ, 0 ≤ C 0 → Spec.Selectivity K val q C → Spec.Neutral C CT →
      C = ceq K val q CT := by
  have e : ceq K val q CT = ceqOfRef K val q (refConc K val q CT) := by
    unfold ceq ceqDv; rw [if_pos hdv]
  rw [e]
  refine ⟨ceqOfRef_select h _, ?_⟩
  intro C h0 hs hn
  have hC : C = ceqOfRef K val q (C 0) := by
    funext i
    unfold ceqOfRef
    by_cases hi : i = 0
    · rw [if_pos hi, hi]
    · rw [if_neg hi, div_pow]
      have h1 := hs i
      have := (h.Kpos i).ne'
      have := (pow_pos h.qref (val i)).ne'
      field_simp
      linarith
  have hsum := ceqOfRef_sum h (C 0)
  rw [← hC, hn, Finset.sum_eq_zero (s := Finset.univ) (f := fun i => if val i ≠ 1 ∧ val i ≠ 2 then C i else 0), add_zero] at hsum
  · have := (refConc_spec h hCT.le).2.2.2.2 (C 0) h0 hsum.symm
    rw [hC, this]
  · intro i _
    rw [if_neg]
    rcases hval i with h' | h' <;> simp [h']

/-! ### C25 -/

/-- Some divalent ion is on the resin iff `aa ≠ 0`. -/
theorem eqAA_ne_iff (h : DvOk K val q) : eqAA K val q ≠ 0 ↔ ∃ i, val i = 2 ∧ q i ≠ 0 := by
  have hn : ∀ i ∈ Finset.univ, 0 ≤ (fun i => if val i = 2 then q i / K i else 0) i := by
    intro i _
    simp only
    split
    · exact div_nonneg (h.qnonneg i) (h.Kpos i).le
    · exact le_rfl
  have hz := Finset.sum_eq_zero_iff_of_nonneg hn
  constructor
  · intro ha
    by_contra hcon
    push Not at hcon
    apply ha
    unfold eqAA
    rw [hz.2, zero_div]
    intro i _
    by_cases hv : val i = 2
    · simp [hv, hcon i hv]
    · simp [hv]
  · rintro ⟨i, hv, hqi⟩ ha
    unfold eqAA at ha
    rcases div_eq_zero_iff.1 ha with h1 | h1
    · have := hz.1 h1 i (Finset.mem_univ i)
      simp only [hv, if_true] at this
      rcases div_eq_zero_iff.1 this with h2 | h2
      · exact hqi h2
      · exact (h.Kpos i).ne' h2
    · exact (pow_pos h.qref 2).ne' h1

/-- C25. With some divalent ion on the resin the batch formula gives the column's concentrations. -/
theorem c25_same (h : DvOk K val q) (hdv : ∃ i, val i = 2 ∧ q i ≠ 0) (hCT : 0 ≤ CT) :
    ceqBatch K val q CT = some (ceq K val q CT) := by
  have ha := (eqAA_ne_iff h).2 hdv
  have hdv' : ∃ i, val i = 2 := by obtain ⟨i, hi, -⟩ := hdv; exact ⟨i, hi⟩
  unfold ceqBatch ceq ceqDv
  rw [if_pos hdv', if_pos hdv']
  have hr : refConcBatch K val q CT = some (refConc K val q CT) := by
    unfold refConcBatch refConc
    simp only [if_neg ha]
    congr 1
    have h1 := eqAA_nonneg h
    have h2 := eqBB_ge h
    set a := eqAA K val q
    set b := eqBB K val q
    have hd : 0 ≤ b ^ 2 - 4 * a * -CT := by nlinarith [mul_nonneg h1 hCT, sq_nonneg b]
    have hsq := Real.sq_sqrt hd
    set s := Real.sqrt (b ^ 2 - 4 * a * -CT) with hs
    have hs0 : 0 ≤ s := Real.sqrt_nonneg _
    have hden : -b - s ≠ 0 := by linarith
    rw [div_eq_div_iff (mul_ne_zero two_ne_zero ha) hden]
    linear_combination -hsq
  rw [hr]; rfl

/-- C25. With a divalent ion in the table but none on the resin, the batch form divides by zero, while
the column form gives `CT / bb`: for monovalent ions exactly the monovalent answer. -/
theorem c25_no_divalent_loaded (h : DvOk K val q) (hdv : ∃ i, val i = 2)
    (hz : ∀ i, val i = 2 → q i = 0) (hval : ∀ i, val i = 1 ∨ val i = 2) (hCT : 0 ≤ CT) :
    ceqBatch K val q CT = none ∧ ceq K val q CT = ceqMv K q CT := by
  have ha : eqAA K val q = 0 := by
    by_contra hne
    obtain ⟨i, h1, h2⟩ := (eqAA_ne_iff h).1 hne
    exact h2 (hz i h1)
  refine ⟨?_, ?_⟩
  · unfold ceqBatch refConcBatch
    rw [if_pos hdv]; simp [ha]
  · have e : ceq K val q CT = ceqOfRef K val q (refConc K val q CT) := by
      unfold ceq ceqDv; rw [if_pos hdv]
    rw [e]
    have hb := eqBB_ge h
    have hb0 : eqBB K val q ≠ 0 := by linarith
    have hr : refConc K val q CT = CT / eqBB K val q := by
      have h1 := (refConc_spec h hCT).1
      rw [ha, zero_mul, zero_add] at h1
      rw [eq_div_iff hb0, mul_comm]; exact h1
    have hS : ∑ j, q j / K j = q 0 * eqBB K val q := by
      unfold eqBB
      have hq0 := h.qref.ne'
      rw [mul_add, mul_one, mul_div_cancel₀ _ hq0]
      have : q 0 = ∑ i : Fin (p + 1), if i = 0 then q 0 else 0 := by simp
      conv_rhs => rw [this]
      rw [← Finset.sum_add_distrib]
      apply Finset.sum_congr rfl
      intro i _
      by_cases hi : i = 0
      · subst hi; simp [h.Kref]
      · rcases hval i with h' | h'
        · simp [hi, h']
        · simp [hi, h', hz i h']
    funext i
    unfold ceqMv
    rw [mv_denom, hS]
    have hq0 := h.qref.ne'
    have hKi := (h.Kpos i).ne'
    unfold ceqOfRef
    by_cases hi : i = 0
    · subst hi
      rw [if_pos rfl, hr, h.Kref]
      field_simp
    · rw [if_neg hi, hr]
      rcases hval i with h' | h'
      · rw [h', pow_one]; field_simp
      · rw [hz i h']; simp

example : ∃ (K q : Fin 2 → ℝ) (val : Fin 2 → ℕ), DvOk K val q ∧ (∃ i, val i = 2) ∧
    (∀ i, val i = 2 → q i = 0) ∧ (∀ i, val i = 1 ∨ val i = 2) :=
  ⟨![1, 3], ![5, 0], ![1, 2],
    ⟨by intro i; fin_cases i <;> simp, rfl, by intro i; fin_cases i <;> simp, by simp, rfl⟩,
    ⟨1, rfl⟩, by intro i; fin_cases i <;> simp, by intro i; fin_cases i <;> simp⟩

/-! ### C26 -/

/-- C26. All ions monovalent: the divalent formula gives the monovalent concentrations. -/
theorem c26_agree (h : DvOk K val q) (hval : ∀ i, val i = 1) (hCT : 0 ≤ CT) :
    ceqDv K val q CT = ceqMv K q CT := by
  have ha : eqAA K val q = 0 := by unfold eqAA; simp [hval]
  have hb := eqBB_ge h
  have hb0 : eqBB K val q ≠ 0 := by linarith
  have hr : refConc K val q CT = CT / eqBB K val q := by
    have h1 := (refConc_spec h hCT).1
    rw [ha, zero_mul, zero_add] at h1
    rw [eq_div_iff hb0, mul_comm]; exact h1
  have hS : ∑ j, q j / K j = q 0 * eqBB K val q := by
    unfold eqBB
    have hq0 := h.qref.ne'
    rw [mul_add, mul_one, mul_div_cancel₀ _ hq0]
    have : q 0 = ∑ i : Fin (p + 1), if i = 0 then q 0 else 0 := by simp
    conv_rhs => rw [this]
    rw [← Finset.sum_add_distrib]
    apply Finset.sum_congr rfl
    intro i _
    by_cases hi : i = 0
    · subst hi; simp [h.Kref]
    · simp [hi, hval]
  funext i
  unfold ceqMv ceqDv
  rw [mv_denom, hS]
  have hq0 := h.qref.ne'
  have hKi := (h.Kpos i).ne'
  unfold ceqOfRef
  by_cases hi : i = 0
  · subst hi
    rw [if_pos rfl, hr, h.Kref]
    field_simp
  · rw [if_neg hi, hr, hval, pow_one]; field_simp

example : ∃ (K q : Fin 2 → ℝ) (val : Fin 2 → ℕ), DvOk K val q ∧ ∀ i, val i = 1 :=
  ⟨![1, 3], ![5, 2], ![1, 1],
    ⟨by intro i; fin_cases i <;> simp, rfl, by intro i; fin_cases i <;> simp, by simp, rfl⟩,
    by intro i; fin_cases i <;> simp⟩

/-! ### C27 -/

/-- C27, full statement: electroneutrality for every valence table with a divalent ion. -/
def NeutralForAll : Prop :=
  ∀ (p : ℕ) (K : Fin (p + 1) → ℝ) (val : Fin (p + 1) → ℕ) (q : Fin (p + 1) → ℝ) (CT : ℝ),
    DvOk K val q → (∀ i, 0 < val i) → (∃ i, val i = 2) → 0 < CT → Spec.Neutral (ceq K val q CT) CT

/-- C27 is false of the code: with a trivalent ion on the resin (valences 1, 2, 3, all loadings and
selectivities 1, total 2) the computed concentrations sum to 3. -/
theorem c27_false : ¬ NeutralForAll := by
  intro h
  have h1 := h 2 (fun _ => 1) ![1, 2, 3] (fun _ => 1) 2
    ⟨fun _ => one_pos, rfl, fun _ => zero_le_one, one_pos, rfl⟩
    (by intro i; fin_cases i <;> simp) ⟨1, rfl⟩ two_pos
  have hr : refConc (fun _ : Fin 3 => (1:ℝ)) ![1, 2, 3] (fun _ => 1) 2 = 1 := by
    unfold refConc
    have ha : eqAA (fun _ : Fin 3 => (1:ℝ)) ![1, 2, 3] (fun _ => 1) = 1 := by
      unfold eqAA; rw [Fin.sum_univ_three]; simp
    have hb : eqBB (fun _ : Fin 3 => (1:ℝ)) ![1, 2, 3] (fun _ => 1) = 1 := by
      unfold eqBB; rw [Fin.sum_univ_three]; simp
    simp only [ha, hb]
    have : Real.sqrt (1 ^ 2 - 4 * 1 * -2) = 3 := by
      rw [show (1 ^ 2 - 4 * 1 * -2 : ℝ) = 3 ^ 2 by norm_num]; exact Real.sqrt_sq (by norm_num)
    rw [this]; norm_num
  unfold Spec.Neutral ceq ceqDv at h1
  rw [if_pos ⟨1, rfl⟩, hr, Fin.sum_univ_three] at h1
  simp [ceqOfRef] at h1
  norm_num at h1

/-- C27, what holds for every valence table: the excess over the total is exactly the computed
concentration of the ions that are neither mono- nor divalent. Missing: electroneutrality when such
ions are on the resin. -/
theorem c27_partial (h : DvOk K val q) (hdv : ∃ i, val i = 2) (hCT : 0 < CT) :
    (∑ i, ceq K val q CT i = CT + ∑ i, if val i ≠ 1 ∧ val i ≠ 2 then ceq K val q CT i else 0) ∧
    ((∀ i, val i = 1 ∨ val i = 2 ∨ q i = 0) → Spec.Neutral (ceq K val q CT) CT) := by
  have e : ceq K val q CT = ceqOfRef K val q (refConc K val q CT) := by
    unfold ceq ceqDv; rw [if_pos hdv]
  have h1 : ∑ i, ceq K val q CT i =
      CT + ∑ i, if val i ≠ 1 ∧ val i ≠ 2 then ceq K val q CT i else 0 := by
    rw [e, ceqOfRef_sum h, (refConc_spec h hCT.le).1]
  refine ⟨h1, fun hz => ?_⟩
  unfold Spec.Neutral
  rw [h1, Finset.sum_eq_zero, add_zero]
  intro i _
  split
  · rename_i hv
    have hq : q i = 0 := by
      rcases hz i with h' | h' | h'
      · exact absurd h' hv.1
      · exact absurd h' hv.2
      · exact h'
    have hi : i ≠ 0 := by rintro rfl; exact h.qref.ne' hq
    rw [e, ceqOfRef, if_neg hi, hq]; simp
  · rfl

end WTM
