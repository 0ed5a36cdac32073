import Mathlib.Tactic
import Mathlib.Analysis.SpecialFunctions.Trigonometric.ArctanDeriv
import Mathlib.Analysis.SpecialFunctions.ExpDeriv
import Mathlib.Analysis.Calculus.Deriv.MeanValue
import Mathlib.Analysis.Real.Pi.Bounds
import Mathlib.Topology.Order.IntermediateValue
import Verif.Model.PacHsdm
import Verif.Lemmas.Bath
import Verif.Props.PacSol

/-! C158, C159: the analytical solution with film and diffusion for powdered carbon, and the search for its roots. -/
set_option autoImplicit false
namespace WTM
open BigOperators Filter Topology

/-! ### C158 -/

/-- What is assumed of the root finder: what it returns lies in the bracket; for a function continuous on the bracket it returns a root
when the signs at the ends differ and raises when they are the same. -/
def Spec.Brent (brentq : RootFinder) : Prop :=
  (∀ f a b x, brentq f a b = some x → a ≤ x ∧ x ≤ b) ∧
  ∀ (f : ℝ → ℝ) (a b : ℝ), a < b → ContinuousOn f (Set.Icc a b) →
    (f a * f b ≤ 0 → ∃ x, brentq f a b = some x ∧ f x = 0) ∧ (0 < f a * f b → brentq f a b = none)

/-- The list holds all modes up to its largest member, each once, in increasing order. -/
def Spec.AllModes (kap bet : ℝ) (roots : List ℝ) : Prop :=
  roots.Pairwise (· < ·) ∧ (∀ p ∈ roots, Spec.BathMode kap bet p) ∧
  ∀ p, Spec.BathMode kap bet p → (∃ r ∈ roots, p ≤ r) → p ∈ roots

/-- C158. `find_pn` finds all modes of the batch up to the last one it returns. -/
def C158 : Prop :=
  ∀ brentq, Spec.Brent brentq → ∀ (A B : ℝ) (n : ℕ), 0 < A → A < 1 → 0 < B → 1 ≤ n → n ≤ 900 →
    ∃ roots, findPn brentq n A B = some roots ∧ n < roots.length ∧ Spec.AllModes ((1 - A) / A) (1 / B) roots

open Classical in
/-- A root finder as assumed exists. -/
noncomputable def idealBrent : RootFinder := fun f a b =>
  if h : ∃ x, a ≤ x ∧ x ≤ b ∧ f x = 0 ∧ f a * f b ≤ 0 then some h.choose else none

theorem idealBrent_ok : Spec.Brent idealBrent := by
  constructor
  · intro f a b x h
    unfold idealBrent at h
    split at h
    · next hx =>
      have := hx.choose_spec
      rw [Option.some.injEq] at h
      rw [← h]
      exact ⟨this.1, this.2.1⟩
    · cases h
  · intro f a b hab hf
    constructor
    · intro hs
      have : ∃ x, a ≤ x ∧ x ≤ b ∧ f x = 0 ∧ f a * f b ≤ 0 := by
        rcases mul_nonpos_iff.1 hs with ⟨h1, h2⟩ | ⟨h1, h2⟩
        · obtain ⟨x, hx, h0⟩ := intermediate_value_Icc' hab.le hf ⟨h2, h1⟩
          exact ⟨x, hx.1, hx.2, h0, hs⟩
        · obtain ⟨x, hx, h0⟩ := intermediate_value_Icc hab.le hf ⟨h1, h2⟩
          exact ⟨x, hx.1, hx.2, h0, hs⟩
      refine ⟨this.choose, ?_, this.choose_spec.2.2.1⟩
      unfold idealBrent
      rw [dif_pos this]
    · intro hs
      unfold idealBrent
      rw [dif_neg]
      rintro ⟨x, -, -, -, h⟩
      linarith

/-- The left end of the bracket of pass `k`. -/
noncomputable def pnGuess (k : ℕ) : ℝ := Real.pi / 2 + 0.000001 + k * Real.pi

theorem pnGuess_succ (k : ℕ) : pnGuess (k + 1) = pnGuess k + Real.pi := by unfold pnGuess; push_cast; ring

theorem pnGuess_lower (k : ℕ) : Real.pi / 2 < pnGuess k := by
  have := Real.pi_pos
  have : (0 : ℝ) ≤ k * Real.pi := by positivity
  unfold pnGuess
  linarith

/-- Every root returned is beyond half of pi, whatever the parameters. -/
theorem pnLoop_lower {brentq : RootFinder} (hb : Spec.Brent brentq) (f : ℝ → ℝ) (n : ℕ) :
    ∀ (guess : ℝ) (roots out : List ℝ), Real.pi / 2 < guess → (∀ p ∈ roots, Real.pi / 2 < p) →
      pnLoop brentq f n guess roots = some out → ∀ p ∈ out, Real.pi / 2 < p := by
  have hpi := Real.pi_pos
  induction n with
  | zero =>
    intro guess roots out _ hr h
    simp only [pnLoop, Option.some.injEq] at h
    rw [← h]; exact hr
  | succ n ih =>
    intro guess roots out hg hr h
    have hfirst : ∀ p ∈ (if roots = [] then pnFirst brentq f guess else roots), Real.pi / 2 < p := by
      by_cases he : roots = []
      · rw [if_pos he]
        intro p hp
        unfold pnFirst at hp
        rw [List.mem_append, Option.mem_toList, Option.mem_toList] at hp
        have hm : Real.pi / 2 < (guess + Real.pi * 0.9999) / 2 := by linarith
        rcases hp with hp | hp
        · exact hg.trans_le (hb.1 _ _ _ _ hp).1
        · exact hm.trans_le (hb.1 _ _ _ _ hp).1
      · rw [if_neg he]; exact hr
    simp only [pnLoop] at h
    set roots' := if roots = [] then pnFirst brentq f guess else roots
    have hg' : Real.pi / 2 < (if roots' = [] then guess else guess + Real.pi) := by
      by_cases he : roots' = []
      · rw [if_pos he]; exact hg
      · rw [if_neg he]; linarith
    set guess' := if roots' = [] then guess else guess + Real.pi
    cases hx : brentq f guess' (guess' + Real.pi * 0.9999) with
    | none => rw [hx] at h; cases h
    | some x =>
      rw [hx] at h
      refine ih guess' (roots' ++ [x]) out hg' ?_ h
      intro p hp
      rw [List.mem_append, List.mem_singleton] at hp
      rcases hp with hp | hp
      · exact hfirst p hp
      · rw [hp]; exact hg'.trans_le (hb.1 _ _ _ _ hx).1

/-- A bath of this size has the mode pi/4 when the Biot number is 1/10. -/
noncomputable def lowKap : ℝ := 3 * (Real.pi / 4 - 1) / (Real.pi ^ 2 / 16 * (10 * (Real.pi / 4) - 9))

theorem lowKap_pos : 0 < lowKap := by
  have h1 := Real.pi_gt_three
  have h2 := Real.pi_lt_d2
  unfold lowKap
  apply div_pos_of_neg_of_neg
  · linarith
  · apply mul_neg_of_pos_of_neg (by positivity)
    linarith

theorem lowKap_mode : Spec.BathMode lowKap 10 (Real.pi / 4) := by
  have h1 := Real.pi_gt_three
  have h2 := Real.pi_lt_d2
  refine ⟨by positivity, ?_⟩
  rw [Real.sin_pi_div_four, Real.cos_pi_div_four]
  have h3 : Real.pi ^ 2 / 16 * (10 * (Real.pi / 4) - 9) ≠ 0 := by
    apply mul_ne_zero (by positivity)
    intro h; linarith
  have e : lowKap * (Real.pi ^ 2 / 16 * (10 * (Real.pi / 4) - 9)) = 3 * (Real.pi / 4 - 1) := div_mul_cancel₀ _ h3
  linear_combination (√2 / 2) * e

/-- C158 is false of the code: with a Biot number of 1/10 the slowest mode can be below half of pi, where the search does not look. -/
theorem c158_false : ¬ C158 := by
  intro h
  have hk := lowKap_pos
  have hpi := Real.pi_pos
  obtain ⟨roots, h1, h2, h3, h4, h5⟩ := h idealBrent idealBrent_ok (1 / (1 + lowKap)) 0.1 1 (by positivity)
    (by rw [div_lt_one (by linarith)]; linarith) (by norm_num) le_rfl (by norm_num)
  have e1 : (1 - 1 / (1 + lowKap)) / (1 / (1 + lowKap)) = lowKap := by
    have : 1 + lowKap ≠ 0 := by linarith
    field_simp
    ring
  have e2 : (1 : ℝ) / 0.1 = 10 := by norm_num
  rw [e1, e2] at h5
  have hl := pnLoop_lower idealBrent_ok _ 1 _ [] roots (by linarith) (by simp) h1
  obtain ⟨r, hr⟩ : ∃ r, r ∈ roots := by
    cases roots with
    | nil => simp at h2
    | cons r rs => exact ⟨r, by simp⟩
  have := h5 _ lowKap_mode ⟨r, hr, by have := hl r hr; linarith⟩
  have := hl _ this
  linarith

/-! The search when the Biot number exceeds 1. -/

/-- The open branch on which the tangent is continuous. -/
def pnBranch (k : ℕ) : Set ℝ := Set.Ioo (Real.pi / 2 + k * Real.pi) (Real.pi / 2 + k * Real.pi + Real.pi)

theorem pnBranch_cos {k : ℕ} {x : ℝ} (hx : x ∈ pnBranch k) : Real.cos x ≠ 0 := by
  have hc : 0 < Real.cos (x - (k + 1 : ℕ) * Real.pi) := by
    apply Real.cos_pos_of_mem_Ioo
    have h1 := hx.1
    have h2 := hx.2
    push_cast
    constructor <;> linarith
  have := Real.cos_sub_nat_mul_pi x (k + 1)
  intro h0
  rw [h0, mul_zero] at this
  exact hc.ne' this

theorem pnBranch_pos {k : ℕ} {x : ℝ} (hx : x ∈ pnBranch k) : 0 < x := by
  have := Real.pi_pos
  have h1 := hx.1
  have : (0 : ℝ) ≤ k * Real.pi := by positivity
  linarith

theorem pnBranch_bracket {k : ℕ} {x : ℝ} (h1 : pnGuess k ≤ x) (h2 : x ≤ pnGuess k + Real.pi * 0.9999) : x ∈ pnBranch k := by
  have := Real.pi_gt_three
  unfold pnGuess at h1 h2
  constructor <;> linarith

section high
variable {A B : ℝ}

theorem pn_den {kap x : ℝ} (hk : 0 < kap) (hB : 1 < B) : 3 ≤ 3 + kap * (B - 1) / B * x ^ 2 := by
  have : 0 < B - 1 := by linarith
  have : 0 < B := by linarith
  have : 0 ≤ kap * (B - 1) / B * x ^ 2 := by positivity
  linarith

theorem pn_kap (hA : 0 < A) (hA1 : A < 1) : 0 < (1 - A) / A := div_pos (by linarith) hA

/-- Away from the poles of the tangent the function vanishes exactly at the modes. -/
theorem pn_root (hA : 0 < A) (hA1 : A < 1) (hB : 1 < B) {x : ℝ} (hx : 0 < x) (hc : Real.cos x ≠ 0) :
    pnFun A B x = 0 ↔ Spec.BathMode ((1 - A) / A) (1 / B) x := by
  have hk := pn_kap hA hA1
  have hd := pn_den (x := x) hk hB
  have hB0 : B ≠ 0 := by linarith
  have hd0 : 3 + (1 - A) / A * (B - 1) / B * x ^ 2 ≠ 0 := by linarith
  unfold pnFun Spec.BathMode
  set kap := (1 - A) / A
  have hs : Real.sin x = Real.tan x * Real.cos x := (Real.tan_mul_cos hc).symm
  simp only []
  rw [sub_eq_zero, div_eq_div_iff hd0 hx.ne']
  set T := Real.tan x
  rw [hs]
  constructor
  · intro h
    refine ⟨hx, ?_⟩
    have : (kap * x ^ 2 * (T + 1 / B * (x - T)) - 3 * (x - T)) * Real.cos x = 0 := by
      have : kap * x ^ 2 * (T + 1 / B * (x - T)) - 3 * (x - T) = 0 := by
        have e : kap * (B - 1) / B = kap * (1 - 1 / B) := by field_simp
        rw [e] at h
        have e' : kap * x ^ 2 / B = kap * x ^ 2 * (1 / B) := by ring
        rw [e'] at h
        linear_combination -h
      rw [this, zero_mul]
    linear_combination this
  · rintro ⟨-, h⟩
    have : (kap * x ^ 2 * (T + 1 / B * (x - T)) - 3 * (x - T)) * Real.cos x = 0 := by linear_combination h
    have h2 := (mul_eq_zero.1 this).resolve_right hc
    have e : kap * (B - 1) / B = kap * (1 - 1 / B) := by field_simp
    rw [e]
    have e' : kap * x ^ 2 / B = kap * x ^ 2 * (1 / B) := by ring
    rw [e']
    linear_combination -h2

/-- A mode is never at a pole of the tangent. -/
theorem pn_mode_cos (hA : 0 < A) (hA1 : A < 1) (hB : 1 < B) {x : ℝ} (hx : Spec.BathMode ((1 - A) / A) (1 / B) x) :
    Real.cos x ≠ 0 := by
  have hk := pn_kap hA hA1
  obtain ⟨h0, h⟩ := hx
  set kap := (1 - A) / A
  intro hc
  rw [hc] at h
  have hs : Real.sin x ≠ 0 := by
    intro hs
    have := Real.sin_sq_add_cos_sq x
    rw [hs, hc] at this
    norm_num at this
  have h2 : (kap * x ^ 2 * (1 - 1 / B) + 3) * Real.sin x = 0 := by linear_combination h
  have h3 := (mul_eq_zero.1 h2).resolve_right hs
  have : 1 / B < 1 := by rw [div_lt_one (by linarith)]; exact hB
  have : 0 ≤ kap * x ^ 2 * (1 - 1 / B) := mul_nonneg (by positivity) (by linarith)
  linarith

theorem pn_ratio_lt (hA : 0 < A) (hA1 : A < 1) (hB : 1 < B) {x : ℝ} (hx : 0 < x) :
    (3 - (1 - A) / A * x ^ 2 / B) / (3 + (1 - A) / A * (B - 1) / B * x ^ 2) < 1 ∧
    -(1 / (B - 1)) < (3 - (1 - A) / A * x ^ 2 / B) / (3 + (1 - A) / A * (B - 1) / B * x ^ 2) := by
  have hk := pn_kap hA hA1
  have hd := pn_den (x := x) hk hB
  set kap := (1 - A) / A
  have hB0 : 0 < B := by linarith
  have hB1 : 0 < B - 1 := by linarith
  have hp : 0 < kap * x ^ 2 / B := by positivity
  have e : kap * (B - 1) / B * x ^ 2 = (B - 1) * (kap * x ^ 2 / B) := by ring
  rw [e] at hd ⊢
  constructor
  · rw [div_lt_one (by linarith)]
    nlinarith
  · rw [lt_div_iff₀ (by linarith), neg_mul, div_mul_eq_mul_div, one_mul, neg_lt, lt_div_iff₀ hB1] 
    nlinarith

/-- No mode lies below half of pi. -/
theorem pn_mode_large (hA : 0 < A) (hA1 : A < 1) (hB : 1 < B) {x : ℝ} (hx : Spec.BathMode ((1 - A) / A) (1 / B) x) :
    Real.pi / 2 < x := by
  by_contra hcon
  push Not at hcon
  have hc := pn_mode_cos hA hA1 hB hx
  have hlt : x < Real.pi / 2 := lt_of_le_of_ne hcon fun h => hc (by rw [h, Real.cos_pi_div_two])
  have h0 := (pn_root hA hA1 hB hx.1 hc).2 hx
  have h1 := (pn_ratio_lt hA hA1 hB hx.1).1
  have h2 : 1 < Real.tan x / x := by rw [lt_div_iff₀ hx.1, one_mul]; exact Real.lt_tan hx.1 hlt
  unfold pnFun at h0
  simp only [] at h0
  linarith

/-- Every mode lies on a branch. -/
theorem pn_mode_branch (hA : 0 < A) (hA1 : A < 1) (hB : 1 < B) {x : ℝ} (hx : Spec.BathMode ((1 - A) / A) (1 / B) x) :
    ∃ k, x ∈ pnBranch k := by
  have hpi := Real.pi_pos
  have hl := pn_mode_large hA hA1 hB hx
  have hc := pn_mode_cos hA hA1 hB hx
  set k := ⌊(x - Real.pi / 2) / Real.pi⌋₊ with hk
  have hnn : 0 ≤ (x - Real.pi / 2) / Real.pi := div_nonneg (by linarith) hpi.le
  have h1 := Nat.floor_le hnn
  have h2 := Nat.lt_floor_add_one ((x - Real.pi / 2) / Real.pi)
  rw [← hk] at h1 h2
  rw [le_div_iff₀ hpi] at h1
  rw [div_lt_iff₀ hpi] at h2
  refine ⟨k, lt_of_le_of_ne (by linarith) ?_, by linarith⟩
  intro h
  apply hc
  rw [← h, Real.cos_add_nat_mul_pi, Real.cos_pi_div_two, mul_zero]

/-- The function falls strictly on each branch. -/
theorem pn_anti (hA : 0 < A) (hA1 : A < 1) (hB : 1 < B) (k : ℕ) :
    ContinuousOn (pnFun A B) (pnBranch k) ∧ StrictAntiOn (pnFun A B) (pnBranch k) := by
  have hk := pn_kap hA hA1
  have hB0 : (0 : ℝ) < B := by linarith
  have hd : ∀ x ∈ pnBranch k, HasDerivAt (pnFun A B)
      ((-((1 - A) / A * (2 * x) / B) * (3 + (1 - A) / A * (B - 1) / B * x ^ 2) -
        (3 - (1 - A) / A * x ^ 2 / B) * ((1 - A) / A * (B - 1) / B * (2 * x))) /
        (3 + (1 - A) / A * (B - 1) / B * x ^ 2) ^ 2 -
        (1 / Real.cos x ^ 2 * x - Real.tan x * 1) / x ^ 2) x := by
    intro x hx
    have h1 := (Real.hasDerivAt_tan (pnBranch_cos hx)).div (hasDerivAt_id x) (pnBranch_pos hx).ne'
    have h2 : HasDerivAt (fun x : ℝ => 3 - (1 - A) / A * x ^ 2 / B) (-((1 - A) / A * (2 * x) / B)) x := by
      simpa using (((hasDerivAt_pow 2 x).const_mul ((1 - A) / A)).div_const B).const_sub 3
    have h3 : HasDerivAt (fun x : ℝ => 3 + (1 - A) / A * (B - 1) / B * x ^ 2) ((1 - A) / A * (B - 1) / B * (2 * x)) x := by
      simpa using ((hasDerivAt_pow 2 x).const_mul ((1 - A) / A * (B - 1) / B)).const_add 3
    have hne : 3 + (1 - A) / A * (B - 1) / B * x ^ 2 ≠ 0 := by
      have := pn_den (x := x) hk hB
      linarith
    exact (h2.div h3 hne).sub h1
  have hcont : ContinuousOn (pnFun A B) (pnBranch k) := fun x hx => (hd x hx).continuousAt.continuousWithinAt
  refine ⟨hcont, ?_⟩
  refine strictAntiOn_of_deriv_neg (convex_Ioo _ _) hcont ?_
  intro x hx
  have hx := interior_subset hx
  rw [(hd x hx).deriv]
  have hx0 := pnBranch_pos hx
  have hc := pnBranch_cos hx
  have hden := pn_den (x := x) hk hB
  set kap := (1 - A) / A
  have e1 : (-(kap * (2 * x) / B) * (3 + kap * (B - 1) / B * x ^ 2) -
        (3 - kap * x ^ 2 / B) * (kap * (B - 1) / B * (2 * x))) = -(6 * kap * x) := by
    field_simp
    ring
  rw [e1]
  have h1 : -(6 * kap * x) / (3 + kap * (B - 1) / B * x ^ 2) ^ 2 < 0 := by
    apply div_neg_of_neg_of_pos
    · have : 0 < 6 * kap * x := by positivity
      linarith
    · positivity
  have h2 : 0 < (1 / Real.cos x ^ 2 * x - Real.tan x * 1) / x ^ 2 := by
    apply div_pos _ (by positivity)
    have e2 : 1 / Real.cos x ^ 2 * x - Real.tan x * 1 = (x - Real.sin x * Real.cos x) / Real.cos x ^ 2 := by
      rw [Real.tan_eq_sin_div_cos]
      field_simp
    rw [e2]
    apply div_pos _ (by positivity)
    have h3 : Real.sin (2 * x) < 2 * x := Real.sin_lt (by linarith)
    rw [Real.sin_two_mul] at h3
    linarith
  linarith

theorem tan_small' : 0 < Real.tan (Real.pi * 0.0001 - 0.000001) ∧ Real.tan (Real.pi * 0.0001 - 0.000001) < 0.00033 := by
  have hpi := Real.pi_gt_three
  have hpi2 := Real.pi_lt_d2
  set d := Real.pi * 0.0001 - 0.000001 with hd
  have hd0 : 0 < d := by rw [hd]; linarith
  have hd1 : d < 0.000314 := by rw [hd]; linarith
  constructor
  · exact Real.tan_pos_of_pos_of_lt_pi_div_two hd0 (by linarith)
  · have h1 : Real.sin d < d := Real.sin_lt hd0
    have h2 := Real.one_sub_sq_div_two_le_cos (x := d)
    have h3 : (0.99 : ℝ) < Real.cos d := by nlinarith
    rw [Real.tan_eq_sin_div_cos, div_lt_iff₀ (by linarith)]
    nlinarith

/-- The bracket of each pass changes sign, from positive to negative. -/
theorem pn_signs (hA : 0 < A) (hA1 : A < 1) (hB : 1 < B) {k : ℕ} (hk : k ≤ 900) (hkB : (k + 1 : ℝ) * 4 ≤ 500000 * (B - 1)) :
    0 < pnFun A B (pnGuess k) ∧ pnFun A B (pnGuess k + Real.pi * 0.9999) < 0 := by
  have hpi := Real.pi_gt_three
  have hpi2 := Real.pi_lt_d2
  have hB1 : 0 < B - 1 := by linarith
  have hkR : (k : ℝ) ≤ 900 := by exact_mod_cast hk
  have hg0 : 0 < pnGuess k := by have := pnGuess_lower k; linarith
  have hgu : pnGuess k < (k + 1) * 4 := by
    unfold pnGuess
    have : (k : ℝ) * Real.pi ≤ k * 3.15 := mul_le_mul_of_nonneg_left hpi2.le (by positivity)
    have : (0 : ℝ) ≤ k := by positivity
    linarith
  constructor
  · have ht : Real.tan (pnGuess k) = -(Real.tan 0.000001)⁻¹ := by
      have : pnGuess k = -(Real.pi / 2 - 0.000001) + (k + 1 : ℕ) * Real.pi := by unfold pnGuess; push_cast; ring
      rw [this, Real.tan_add_nat_mul_pi, Real.tan_neg, Real.tan_pi_div_two_sub]
    have h3 : 500000 < (Real.tan 0.000001)⁻¹ := by
      rw [lt_inv_comm₀ (by norm_num) tan_small.1]
      calc Real.tan 0.000001 < 0.000002 := tan_small.2
        _ = _ := by norm_num
    have h4 := (pn_ratio_lt hA hA1 hB hg0).2
    unfold pnFun
    simp only []
    rw [ht, neg_div]
    have h5 : 1 / (B - 1) < (Real.tan 0.000001)⁻¹ / pnGuess k := by
      rw [div_lt_div_iff₀ hB1 hg0, one_mul]
      have : 500000 * (B - 1) < (Real.tan 0.000001)⁻¹ * (B - 1) := mul_lt_mul_of_pos_right h3 hB1
      linarith
    linarith
  · set x := pnGuess k + Real.pi * 0.9999 with hx
    have hx0 : 0 < x := by linarith
    have hxu : x < 3000 := by
      have : (0 : ℝ) ≤ k := by positivity
      have : pnGuess k < 900 * 3.15 + 3 := by
        unfold pnGuess
        have : (k : ℝ) * Real.pi ≤ 900 * 3.15 := mul_le_mul hkR hpi2.le (by linarith) (by norm_num)
        linarith
      linarith
    have ht : Real.tan x = (Real.tan (Real.pi * 0.0001 - 0.000001))⁻¹ := by
      have : x = (Real.pi / 2 - (Real.pi * 0.0001 - 0.000001)) + (k + 1 : ℕ) * Real.pi := by
        rw [hx]; unfold pnGuess; push_cast; ring
      rw [this, Real.tan_add_nat_mul_pi, Real.tan_pi_div_two_sub]
    have h4 := (pn_ratio_lt hA hA1 hB hx0).1
    have h5 : 1 < Real.tan x / x := by
      rw [lt_div_iff₀ hx0, one_mul, ht]
      have : 3000 < (Real.tan (Real.pi * 0.0001 - 0.000001))⁻¹ := by
        rw [lt_inv_comm₀ (by norm_num) tan_small'.1]
        calc _ < (0.00033 : ℝ) := tan_small'.2
          _ < _ := by norm_num
      linarith
    unfold pnFun
    simp only []
    linarith

/-- Each bracket holds exactly one mode, and no other mode lies on its branch. -/
theorem pn_bracket (hA : 0 < A) (hA1 : A < 1) (hB : 1 < B) {k : ℕ} (hk : k ≤ 900) (hkB : (k + 1 : ℝ) * 4 ≤ 500000 * (B - 1)) :
    ∃ p, pnGuess k < p ∧ p < pnGuess k + Real.pi * 0.9999 ∧ pnFun A B p = 0 ∧ Spec.BathMode ((1 - A) / A) (1 / B) p ∧
      (∀ x ∈ pnBranch k, pnFun A B x = 0 → x = p) ∧ ∀ x ∈ pnBranch k, Spec.BathMode ((1 - A) / A) (1 / B) x → x = p := by
  have hpi := Real.pi_gt_three
  obtain ⟨hs1, hs2⟩ := pn_signs hA hA1 hB hk hkB
  obtain ⟨hcont, hanti⟩ := pn_anti hA hA1 hB k
  have hsub : Set.Icc (pnGuess k) (pnGuess k + Real.pi * 0.9999) ⊆ pnBranch k := fun x hx => pnBranch_bracket hx.1 hx.2
  have hle : pnGuess k ≤ pnGuess k + Real.pi * 0.9999 := by linarith
  obtain ⟨p, hp, hp0⟩ := intermediate_value_Icc' hle (hcont.mono hsub) ⟨hs2.le, hs1.le⟩
  have hpb := hsub hp
  have huniq : ∀ x ∈ pnBranch k, pnFun A B x = 0 → x = p := fun x hx h => hanti.injOn hx hpb (by rw [h, hp0])
  refine ⟨p, lt_of_le_of_ne hp.1 ?_, lt_of_le_of_ne hp.2 ?_, hp0,
    (pn_root hA hA1 hB (pnBranch_pos hpb) (pnBranch_cos hpb)).1 hp0, huniq, ?_⟩
  · intro h; rw [h, hp0] at hs1; exact lt_irrefl _ hs1
  · intro h; rw [← h, hp0] at hs2; exact lt_irrefl _ hs2
  · intro x hx h
    exact huniq x hx ((pn_root hA hA1 hB h.1 (pnBranch_cos hx)).2 h)

/-- The search with the modes named. -/
theorem pnLoop_run {brentq : RootFinder} {f : ℝ → ℝ} {rho : ℕ → ℝ} {n : ℕ} :
    ∀ (k : ℕ) (roots : List ℝ), roots ≠ [] →
      (∀ j, k < j → j ≤ k + n → brentq f (pnGuess j) (pnGuess j + Real.pi * 0.9999) = some (rho j)) →
      pnLoop brentq f n (pnGuess k) roots = some (roots ++ (List.range n).map fun j => rho (k + 1 + j)) := by
  induction n with
  | zero => intro k roots _ _; simp [pnLoop]
  | succ n ih =>
    intro k roots hne h
    unfold pnLoop
    simp only [if_neg hne, ← pnGuess_succ]
    rw [h (k + 1) (by omega) (by omega)]
    simp only []
    rw [ih (k + 1) (roots ++ [rho (k + 1)]) (by simp) fun j h1 h2 => h j (by omega) (by omega)]
    rw [List.append_assoc, List.range_succ_eq_map]
    simp only [List.map_cons, List.map_map, List.singleton_append, add_zero]
    congr 4
    funext j
    simp only [Function.comp]
    congr 1
    omega

/-- C158, as far as it holds: when the Biot number exceeds 1 (by enough for the number of roots asked for: `4(n+1)` over half a million)
and the point at which the first bracket is split is not itself a mode. Missing: Biot numbers up to 1, where the slowest mode can be
below the first bracket; a mode at the split point, which is returned twice. -/
theorem c158_partial {brentq : RootFinder} (hb : Spec.Brent brentq) (hA : 0 < A) (hA1 : A < 1) (hB : 1 < B) {n : ℕ} (hn : 1 ≤ n)
    (hn9 : n ≤ 900) (hnB : (n + 1 : ℝ) * 4 ≤ 500000 * (B - 1))
    (hsplit : ¬ Spec.BathMode ((1 - A) / A) (1 / B) ((Real.pi / 2 + 0.000001 + Real.pi * 0.9999) / 2)) :
    ∃ roots, findPn brentq n A B = some roots ∧ roots.length = n + 1 ∧ Spec.AllModes ((1 - A) / A) (1 / B) roots := by
  have hpi := Real.pi_gt_three
  have hpi2 := Real.pi_lt_d2
  have hkB : ∀ k : ℕ, k ≤ n → (k + 1 : ℝ) * 4 ≤ 500000 * (B - 1) := fun k hk => by
    have : (k : ℝ) ≤ n := by exact_mod_cast hk
    linarith
  have hex : ∀ k : ℕ, ∃ p, k ≤ n → pnGuess k < p ∧ p < pnGuess k + Real.pi * 0.9999 ∧ pnFun A B p = 0 ∧
      Spec.BathMode ((1 - A) / A) (1 / B) p ∧
      (∀ x ∈ pnBranch k, pnFun A B x = 0 → x = p) ∧ ∀ x ∈ pnBranch k, Spec.BathMode ((1 - A) / A) (1 / B) x → x = p := by
    intro k
    by_cases h : k ≤ n
    · obtain ⟨p, hp⟩ := pn_bracket hA hA1 hB (h.trans hn9) (hkB k h)
      exact ⟨p, fun _ => hp⟩
    · exact ⟨0, fun h' => absurd h' h⟩
  choose rho hrho using hex
  have hcont : ∀ k : ℕ, ContinuousOn (pnFun A B) (pnBranch k) := fun k => (pn_anti hA hA1 hB k).1
  -- the passes after the first
  have hpass : ∀ k, k ≤ n → brentq (pnFun A B) (pnGuess k) (pnGuess k + Real.pi * 0.9999) = some (rho k) := by
    intro k hk
    obtain ⟨hs1, hs2⟩ := pn_signs hA hA1 hB (hk.trans hn9) (hkB k hk)
    obtain ⟨x, hx, hx0⟩ := (hb.2 (pnFun A B) (pnGuess k) (pnGuess k + Real.pi * 0.9999) (by linarith)
      ((hcont k).mono fun x hx => pnBranch_bracket hx.1 hx.2)).1 (mul_neg_of_pos_of_neg hs1 hs2).le
    have hr := hb.1 _ _ _ _ hx
    rw [hx, (hrho k hk).2.2.2.2.1 x (pnBranch_bracket hr.1 hr.2) hx0]
  -- the first pass
  have hfirst : pnFirst brentq (pnFun A B) (pnGuess 0) = [rho 0] := by
    obtain ⟨hs1, hs2⟩ := pn_signs hA hA1 hB (k := 0) (by omega) (hkB 0 (by omega))
    have hg0 : pnGuess 0 = Real.pi / 2 + 0.000001 := by unfold pnGuess; simp
    set mid := (pnGuess 0 + Real.pi * 0.9999) / 2 with hmid
    have hm1 : pnGuess 0 < mid := by rw [hmid, hg0]; linarith
    have hm2 : mid < pnGuess 0 + Real.pi * 0.9999 := by rw [hmid, hg0]; linarith
    have hmb : mid ∈ pnBranch 0 := pnBranch_bracket hm1.le hm2.le
    have hfm : pnFun A B mid ≠ 0 := by
      intro h
      apply hsplit
      rw [← hg0, ← hmid]
      exact (pn_root hA hA1 hB (pnBranch_pos hmb) (pnBranch_cos hmb)).1 h
    have hL := hb.2 (pnFun A B) (pnGuess 0) mid hm1 ((hcont 0).mono fun x hx => pnBranch_bracket hx.1 (hx.2.trans hm2.le))
    have hR := hb.2 (pnFun A B) mid (pnGuess 0 + Real.pi * 0.9999) hm2
      ((hcont 0).mono fun x hx => pnBranch_bracket (hm1.le.trans hx.1) hx.2)
    unfold pnFirst
    rw [← hmid]
    rcases lt_or_gt_of_ne hfm with h | h
    · obtain ⟨x, hx, hx0⟩ := hL.1 (mul_neg_of_pos_of_neg hs1 h).le
      have hr := hb.1 _ _ _ _ hx
      rw [hx, hR.2 (mul_pos_of_neg_of_neg h hs2),
        (hrho 0 (by omega)).2.2.2.2.1 x (pnBranch_bracket hr.1 (hr.2.trans hm2.le)) hx0]
      rfl
    · obtain ⟨x, hx, hx0⟩ := hR.1 (mul_neg_of_pos_of_neg h hs2).le
      have hr := hb.1 _ _ _ _ hx
      rw [hx, hL.2 (mul_pos hs1 h),
        (hrho 0 (by omega)).2.2.2.2.1 x (pnBranch_bracket (hm1.le.trans hr.1) hr.2) hx0]
      rfl
  obtain ⟨n', rfl⟩ : ∃ n', n = n' + 1 := ⟨n - 1, by omega⟩
  refine ⟨(List.range (n' + 2)).map rho, ?_, by simp, ?_, ?_, ?_⟩
  · have hg0 : Real.pi / 2 + 0.000001 = pnGuess 0 := by unfold pnGuess; simp
    unfold findPn
    rw [hg0]
    unfold pnLoop
    simp only [if_true, hfirst, List.cons_ne_nil, if_false, ← pnGuess_succ]
    rw [hpass (0 + 1) (by omega)]
    simp only []
    rw [pnLoop_run (rho := rho) (0 + 1) _ (by simp) fun j h1 h2 => hpass j (by omega)]
    rw [List.range_succ_eq_map, List.range_succ_eq_map]
    simp only [List.map_cons, List.map_map, List.cons_append, zero_add, List.nil_append]
    congr 3
    refine List.map_congr_left fun j _ => ?_
    simp only [Function.comp]
    congr 1
    omega
  · rw [List.pairwise_map]
    refine (List.pairwise_lt_range).imp_of_mem ?_
    intro i j hi hj hij
    rw [List.mem_range] at hi hj
    have h1 := (hrho i (by omega)).2.1
    have h2 := (hrho j (by omega)).1
    have : pnGuess i + Real.pi ≤ pnGuess j := by
      unfold pnGuess
      have : (i + 1 : ℝ) ≤ j := by exact_mod_cast hij
      have : (i + 1 : ℝ) * Real.pi ≤ j * Real.pi := mul_le_mul_of_nonneg_right this (by linarith)
      linarith
    linarith
  · intro p hp
    rw [List.mem_map] at hp
    obtain ⟨k, hk, rfl⟩ := hp
    rw [List.mem_range] at hk
    exact (hrho k (by omega)).2.2.2.1
  · rintro p hp ⟨r, hr, hpr⟩
    rw [List.mem_map] at hr
    obtain ⟨k, hk, rfl⟩ := hr
    rw [List.mem_range] at hk
    obtain ⟨j, hj⟩ := pn_mode_branch hA hA1 hB hp
    have hjk : j ≤ k := by
      by_contra hcon
      push Not at hcon
      have h1 := (hrho k (by omega)).2.1
      have h2 := hj.1
      have : (k + 1 : ℝ) ≤ j := by exact_mod_cast hcon
      have : (k + 1 : ℝ) * Real.pi ≤ j * Real.pi := mul_le_mul_of_nonneg_right this (by linarith)
      unfold pnGuess at h1
      linarith
    rw [List.mem_map]
    exact ⟨j, by rw [List.mem_range]; omega, ((hrho j (by omega)).2.2.2.2.2 p hj hp).symm⟩

end high

theorem split_not_mode : ¬ Spec.BathMode ((1 - 1 / 2) / (1 / 2)) (1 / 2) ((Real.pi / 2 + 0.000001 + Real.pi * 0.9999) / 2) := by
  rintro ⟨-, h⟩
  have h1 := Real.pi_gt_three
  have h2 := Real.pi_lt_d2
  set x := (Real.pi / 2 + 0.000001 + Real.pi * 0.9999) / 2 with hx
  have hx1 : Real.pi / 2 < x := by rw [hx]; linarith
  have hx2 : x < 2.4 := by rw [hx]; linarith
  have hc : Real.cos x < 0 := Real.cos_neg_of_pi_div_two_lt_of_lt hx1 (by linarith)
  have hs : 0 < Real.sin x := Real.sin_pos_of_pos_of_lt_pi (by linarith) (by linarith)
  have hp : 0 < (-(Real.cos x)) * (x * (3 - x ^ 2 / 2)) := mul_pos (by linarith) (mul_pos (by linarith) (by nlinarith))
  have hq : 0 < Real.sin x * (x ^ 2 / 2 + 3) := by positivity
  nlinarith

/-- The hypotheses of `c158_partial` hold e.g. for half of the solute adsorbed at equilibrium, a Biot number of 2 and ten terms. -/
example : (0 : ℝ) < 1 / 2 ∧ (1 / 2 : ℝ) < 1 ∧ (1 : ℝ) < 2 ∧ ((10 : ℕ) + 1 : ℝ) * 4 ≤ 500000 * (2 - 1) ∧
    ¬ Spec.BathMode ((1 - 1 / 2) / (1 / 2)) (1 / 2) ((Real.pi / 2 + 0.000001 + Real.pi * 0.9999) / 2) :=
  ⟨by norm_num, by norm_num, by norm_num, by norm_num, split_not_mode⟩

/-! ### C159 -/

noncomputable section

/-- Weight of a root in the series. -/
def hsdmC (LAM Bi x : ℝ) : ℝ :=
  6 / (9 * LAM / (1 - LAM) + (1 - LAM) * x ^ 2 - (5 * LAM + 1) * x ^ 2 / Bi + (1 - LAM) * x ^ 4 / Bi ^ 2)

theorem hsdmSum_eq (q : List ℝ) (LAM Bi Ds rb t : ℝ) :
    hsdmSum q LAM Bi Ds rb t = 1 - (q.map fun x => hsdmC LAM Bi x * Real.exp (-(Ds * x ^ 2 / rb ^ 2) * t)).sum := by
  unfold hsdmSum hsdmC
  congr 3
  funext x
  rw [div_mul_eq_mul_div]
  congr 3
  ring

/-- At a mode the weight is the share of the mode in the initial state. -/
theorem hsdmC_mode {LAM Bi x : ℝ} (h0 : 0 < LAM) (h1 : LAM < 1) (hx : Spec.BathMode ((1 - LAM) / LAM) (1 / Bi) x) :
    0 < hsdmC LAM Bi x ∧ LAM * hsdmC LAM Bi x = modeA ((1 - LAM) / LAM) (1 / Bi) x * modeY (1 / Bi) x := by
  have hk : 0 < (1 - LAM) / LAM := div_pos (by linarith) h0
  obtain ⟨e, hQ⟩ := modeA_mul hk hx
  have h1' : 0 < 1 - LAM := by linarith
  have hden : 9 * LAM / (1 - LAM) + (1 - LAM) * x ^ 2 - (5 * LAM + 1) * x ^ 2 / Bi + (1 - LAM) * x ^ 4 / Bi ^ 2 =
      (9 + 9 * ((1 - LAM) / LAM) + ((1 - LAM) / LAM) ^ 2 * x ^ 2 - (6 * ((1 - LAM) / LAM) + ((1 - LAM) / LAM) ^ 2) * x ^ 2 * (1 / Bi) +
        ((1 - LAM) / LAM) ^ 2 * x ^ 4 * (1 / Bi) ^ 2) * (LAM ^ 2 / (1 - LAM)) := by
    rw [div_eq_mul_one_div ((5 * LAM + 1) * x ^ 2) Bi, div_eq_mul_one_div ((1 - LAM) * x ^ 4) (Bi ^ 2), ← one_div_pow]
    field_simp
    ring
  unfold hsdmC
  rw [hden, e]
  set Q := 9 + 9 * ((1 - LAM) / LAM) + ((1 - LAM) / LAM) ^ 2 * x ^ 2 -
    (6 * ((1 - LAM) / LAM) + ((1 - LAM) / LAM) ^ 2) * x ^ 2 * (1 / Bi) + ((1 - LAM) / LAM) ^ 2 * x ^ 4 * (1 / Bi) ^ 2
  refine ⟨by positivity, ?_⟩
  field_simp

/-- Sums of decaying exponentials with positive weights. -/
theorem decay_sum {q : List ℝ} {c d : ℝ → ℝ} (hc : ∀ x ∈ q, 0 < c x) (hd : ∀ x ∈ q, 0 < d x) (hne : q ≠ []) :
    (∀ t : ℝ, 0 < (q.map fun x => c x * Real.exp (-(d x) * t)).sum) ∧
    StrictAnti (fun t : ℝ => (q.map fun x => c x * Real.exp (-(d x) * t)).sum) ∧
    Tendsto (fun t : ℝ => (q.map fun x => c x * Real.exp (-(d x) * t)).sum) atTop (𝓝 0) := by
  have hterm : ∀ x ∈ q, StrictAnti fun t : ℝ => c x * Real.exp (-(d x) * t) := by
    intro x hx s t hst
    have : -(d x) * t < -(d x) * s := by have := mul_lt_mul_of_pos_left hst (hd x hx); linarith
    exact mul_lt_mul_of_pos_left (Real.exp_lt_exp.2 this) (hc x hx)
  have hlim : ∀ x ∈ q, Tendsto (fun t : ℝ => c x * Real.exp (-(d x) * t)) atTop (𝓝 0) := by
    intro x hx
    have h1 : Tendsto (fun t : ℝ => Real.exp (-(d x * t))) atTop (𝓝 0) :=
      Real.tendsto_exp_neg_atTop_nhds_zero.comp (tendsto_id.const_mul_atTop (hd x hx))
    have h2 := h1.const_mul (c x)
    rw [mul_zero] at h2
    refine h2.congr fun t => ?_
    rw [neg_mul]
  have main : ∀ q : List ℝ, (∀ x ∈ q, 0 < c x) → (∀ x ∈ q, StrictAnti fun t : ℝ => c x * Real.exp (-(d x) * t)) →
      (∀ x ∈ q, Tendsto (fun t : ℝ => c x * Real.exp (-(d x) * t)) atTop (𝓝 0)) →
      (∀ t : ℝ, 0 ≤ (q.map fun x => c x * Real.exp (-(d x) * t)).sum) ∧
      (q ≠ [] → ∀ t : ℝ, 0 < (q.map fun x => c x * Real.exp (-(d x) * t)).sum) ∧
      Antitone (fun t : ℝ => (q.map fun x => c x * Real.exp (-(d x) * t)).sum) ∧
      (q ≠ [] → StrictAnti (fun t : ℝ => (q.map fun x => c x * Real.exp (-(d x) * t)).sum)) ∧
      Tendsto (fun t : ℝ => (q.map fun x => c x * Real.exp (-(d x) * t)).sum) atTop (𝓝 0) := by
    intro q
    induction q with
    | nil => intro _ _ _; simp [antitone_const]
    | cons x xs ih =>
      intro h1 h2 h3
      obtain ⟨i1, -, i3, -, i5⟩ := ih (fun y hy => h1 y (by simp [hy])) (fun y hy => h2 y (by simp [hy])) fun y hy => h3 y (by simp [hy])
      have hs : ∀ t : ℝ, 0 < ((x :: xs).map fun x => c x * Real.exp (-(d x) * t)).sum := fun t => by
        simp only [List.map_cons, List.sum_cons]
        have : 0 < c x * Real.exp (-(d x) * t) := mul_pos (h1 x (by simp)) (Real.exp_pos _)
        have := i1 t
        linarith
      have ha : StrictAnti fun t : ℝ => ((x :: xs).map fun x => c x * Real.exp (-(d x) * t)).sum := by
        intro s t hst
        simp only [List.map_cons, List.sum_cons]
        exact add_lt_add_of_lt_of_le (h2 x (by simp) hst) (i3 hst.le)
      refine ⟨fun t => (hs t).le, fun _ => hs, ha.antitone, fun _ => ha, ?_⟩
      have := (h3 x (by simp)).add i5
      simpa using this
  obtain ⟨-, m2, -, m4, m5⟩ := main q hc hterm hlim
  exact ⟨m2 hne, m4 hne, m5⟩

theorem list_sum_nodup {q : List ℝ} (hq : q.Nodup) (g : ℝ → ℝ) : (q.map g).sum = ∑ x ∈ q.toFinset, g x :=
  (List.sum_toFinset g hq).symm

/-- C159. With any distinct modes as roots, the uptake is between 0 and 1 for all times from the start, increases strictly and tends
to 1. -/
theorem c159_fraction {LAM Bi Ds rb : ℝ} (h0 : 0 < LAM) (h1 : LAM < 1) (hD : 0 < Ds) (hr : 0 < rb) {q : List ℝ} (hne : q ≠ [])
    (hq : q.Nodup) (hm : ∀ x ∈ q, Spec.BathMode ((1 - LAM) / LAM) (1 / Bi) x) :
    (∀ t, 0 ≤ t → 0 ≤ hsdmSum q LAM Bi Ds rb t) ∧ (∀ t, hsdmSum q LAM Bi Ds rb t < 1) ∧
      StrictMono (hsdmSum q LAM Bi Ds rb) ∧ Tendsto (hsdmSum q LAM Bi Ds rb) atTop (𝓝 1) := by
  have hk : 0 < (1 - LAM) / LAM := div_pos (by linarith) h0
  obtain ⟨d1, d2, d3⟩ := decay_sum (q := q) (c := hsdmC LAM Bi) (d := fun x => Ds * x ^ 2 / rb ^ 2)
    (fun x hx => (hsdmC_mode h0 h1 (hm x hx)).1) (fun x hx => by have := (hm x hx).1; positivity) hne
  have hmono : StrictMono (hsdmSum q LAM Bi Ds rb) := by
    intro s t hst
    rw [hsdmSum_eq, hsdmSum_eq]
    have := d2 hst
    simp only [] at this
    linarith
  have hzero : 0 ≤ hsdmSum q LAM Bi Ds rb 0 := by
    rw [hsdmSum_eq]
    simp only [mul_zero, Real.exp_zero, mul_one]
    have hb := mode_bessel hk q.toFinset fun p hp => hm p (List.mem_toFinset.1 hp)
    rw [list_sum_nodup hq]
    have e : ∑ x ∈ q.toFinset, modeA ((1 - LAM) / LAM) (1 / Bi) x * modeY (1 / Bi) x = LAM * ∑ x ∈ q.toFinset, hsdmC LAM Bi x := by
      rw [Finset.mul_sum]
      exact Finset.sum_congr rfl fun x hx => ((hsdmC_mode h0 h1 (hm x (List.mem_toFinset.1 hx))).2).symm
    rw [e] at hb
    have e2 : (1 - LAM) / LAM / (1 + (1 - LAM) / LAM) = 1 - LAM := by field_simp; ring
    rw [e2] at hb
    have : LAM * ∑ x ∈ q.toFinset, hsdmC LAM Bi x ≤ LAM * 1 := by linarith
    have := le_of_mul_le_mul_left this h0
    linarith
  refine ⟨fun t ht => hzero.trans (hmono.monotone ht), fun t => ?_, hmono, ?_⟩
  · rw [hsdmSum_eq]
    have := d1 t
    linarith
  · have := d3.const_sub 1
    rw [sub_zero] at this
    exact this.congr fun t => (hsdmSum_eq q LAM Bi Ds rb t).symm

/-- C159. A mode left out is missing from the start: the reported uptake begins at its weight or above. -/
theorem c159_missed {LAM Bi Ds rb : ℝ} (h0 : 0 < LAM) (h1 : LAM < 1) {q : List ℝ} (hq : q.Nodup)
    (hm : ∀ x ∈ q, Spec.BathMode ((1 - LAM) / LAM) (1 / Bi) x) {p : ℝ} (hp : Spec.BathMode ((1 - LAM) / LAM) (1 / Bi) p) (hpq : p ∉ q) :
    0 < hsdmC LAM Bi p ∧ hsdmC LAM Bi p ≤ hsdmSum q LAM Bi Ds rb 0 := by
  have hk : 0 < (1 - LAM) / LAM := div_pos (by linarith) h0
  refine ⟨(hsdmC_mode h0 h1 hp).1, ?_⟩
  have hq' : (p :: q).Nodup := List.nodup_cons.2 ⟨hpq, hq⟩
  have hm' : ∀ x ∈ (p :: q), Spec.BathMode ((1 - LAM) / LAM) (1 / Bi) x := by
    intro x hx
    rcases List.mem_cons.1 hx with h | h
    · rw [h]; exact hp
    · exact hm x h
  have := (c159_fraction (Ds := 1) (rb := 1) h0 h1 one_pos one_pos (by simp) hq' hm').1 0 le_rfl
  rw [hsdmSum_eq] at this ⊢
  simp only [mul_zero, Real.exp_zero, mul_one, List.map_cons, List.sum_cons] at this ⊢
  linarith

/-- Loading times radius that belongs to the series: the projection of the initial state on the uniform state and the roots. -/
def hsdmU (q : List ℝ) (LAM Bi Kd Ds rb : ℝ) (r t : ℝ) : ℝ :=
  rb * Kd * ((1 - LAM) * (r / rb) + ∑ x ∈ q.toFinset, modeA ((1 - LAM) / LAM) (1 / Bi) x *
    (Real.sin (x * (r / rb)) * Real.exp (-(Ds * x ^ 2 / rb ^ 2) * t)))

theorem lam_kap {Vw Vx Kd : ℝ} (hw : 0 < Vw) (hx : 0 < Vx) (hK : 0 < Kd) :
    0 < hsdmLam Vw Vx Kd ∧ hsdmLam Vw Vx Kd < 1 ∧ (1 - hsdmLam Vw Vx Kd) / hsdmLam Vw Vx Kd = Vw / Vx / Kd := by
  unfold hsdmLam
  have h : 0 < Vw / Vx / Kd := by positivity
  refine ⟨by positivity, by rw [div_lt_one (by linarith)]; linarith, ?_⟩
  have : 1 + Vw / Vx / Kd ≠ 0 := by linarith
  set k := Vw / Vx / Kd
  field_simp
  ring

/-- C159. The series is a solution of the batch with diffusion and film: there is a loading of the particle with which the water
concentration `1 - LAM f` obeys the diffusion equation, the film and the balance of the water, and together they hold what the water
held at the start. -/
theorem c159_batch {kf Ds rb Vw Vx Kd : ℝ} (hkf : 0 < kf) (hD : 0 < Ds) (hr : 0 < rb) (hw : 0 < Vw) (hx : 0 < Vx) (hK : 0 < Kd)
    {q : List ℝ} (hq : q.Nodup)
    (hm : ∀ x ∈ q, Spec.BathMode (Vw / Vx / Kd) (1 / hsdmBi kf Ds rb Kd) x) :
    ∃ u : ℝ → ℝ → ℝ,
      Spec.Batch Ds rb kf Kd Vw Vx u
        (fun t => 1 - hsdmLam Vw Vx Kd * hsdmSum q (hsdmLam Vw Vx Kd) (hsdmBi kf Ds rb Kd) Ds rb t) ∧
      ∀ t : ℝ, Vw * (1 - hsdmLam Vw Vx Kd * hsdmSum q (hsdmLam Vw Vx Kd) (hsdmBi kf Ds rb Kd) Ds rb t) +
        Vx * Spec.meanLoad rb u t = Vw := by
  obtain ⟨hl0, hl1, hlk⟩ := lam_kap hw hx hK
  rw [← hlk] at hm
  set L := hsdmLam Vw Vx Kd with hL
  set Bi := hsdmBi kf Ds rb Kd with hBi
  set kap := (1 - L) / L with hkap
  set bet := 1 / Bi with hbet
  have hbeta : kf * bet = Ds * Kd / rb := by rw [hbet, hBi]; unfold hsdmBi; field_simp
  have hkap0 : 0 < kap := div_pos (by linarith) hl0
  set s := q.toFinset with hs
  have hms : ∀ x ∈ s, Spec.BathMode kap bet x := fun x hx => hm x (List.mem_toFinset.1 hx)
  set a := modeA kap bet with ha
  set E : ℝ → ℝ → ℝ := fun x t => Real.exp (-(Ds * x ^ 2 / rb ^ 2) * t) with hE
  -- the dissolved concentration
  have hC : ∀ t, 1 - L * hsdmSum q L Bi Ds rb t = (1 - L) + ∑ x ∈ s, a x * modeY bet x * E x t := by
    intro t
    rw [hsdmSum_eq, list_sum_nodup hq]
    have e : ∑ x ∈ s, a x * modeY bet x * E x t = L * ∑ x ∈ q.toFinset, hsdmC L Bi x * Real.exp (-(Ds * x ^ 2 / rb ^ 2) * t) := by
      rw [Finset.mul_sum]
      refine Finset.sum_congr rfl fun x hx => ?_
      have := (hsdmC_mode hl0 hl1 (hms x hx)).2
      rw [ha, ← this, mul_assoc]
    rw [e]
    ring
  have hEt : ∀ x t : ℝ, HasDerivAt (E x) (E x t * (-(Ds * x ^ 2 / rb ^ 2))) t := by
    intro x t
    have : HasDerivAt (fun t : ℝ => -(Ds * x ^ 2 / rb ^ 2) * t) (-(Ds * x ^ 2 / rb ^ 2)) t := by
      simpa using (hasDerivAt_id t).const_mul (-(Ds * x ^ 2 / rb ^ 2))
    exact this.exp
  have hU : ∀ r t, hsdmU q L Bi Kd Ds rb r t =
      rb * Kd * ((1 - L) * (r / rb) + ∑ x ∈ s, a x * (Real.sin (x * (r / rb)) * E x t)) := fun _ _ => rfl
  have hU1 : ∀ t, hsdmU q L Bi Kd Ds rb rb t = rb * Kd * ((1 - L) + ∑ x ∈ s, a x * (Real.sin x * E x t)) := by
    intro t
    rw [hU, div_self hr.ne']
    simp only [mul_one]
  clear_value a s kap bet L Bi
  have hru : ∀ x r : ℝ, HasDerivAt (fun r : ℝ => x * (r / rb)) (x * (1 / rb)) r := fun x r =>
    ((hasDerivAt_id r).div_const rb).const_mul x
  refine ⟨hsdmU q L Bi Kd Ds rb, ⟨fun t => by unfold hsdmU; simp, ?_⟩, ?_⟩
  · refine ⟨fun r t => rb * Kd * ((1 - L) * (1 / rb) + ∑ x ∈ s, a x * (Real.cos (x * (r / rb)) * (x * (1 / rb)) * E x t)),
      fun r t => rb * Kd * ∑ x ∈ s, a x * (-(Real.sin (x * (r / rb))) * (x * (1 / rb)) * (x * (1 / rb)) * E x t),
      fun r t => rb * Kd * ∑ x ∈ s, a x * (Real.sin (x * (r / rb)) * (E x t * (-(Ds * x ^ 2 / rb ^ 2)))),
      fun t => ∑ x ∈ s, a x * modeY bet x * (E x t * (-(Ds * x ^ 2 / rb ^ 2))), ?_, ?_⟩
    · intro r t
      refine ⟨?_, ?_, ?_, ?_⟩
      · simp only [hU]
        refine HasDerivAt.const_mul _ (HasDerivAt.add ?_ (HasDerivAt.fun_sum fun x _ => ?_))
        · exact ((hasDerivAt_id r).div_const rb).const_mul (1 - L)
        · exact (((hru x r).sin).mul_const _).const_mul _
      · refine HasDerivAt.const_mul _ ?_
        have : HasDerivAt (fun r : ℝ => ∑ x ∈ s, a x * (Real.cos (x * (r / rb)) * (x * (1 / rb)) * E x t))
            (∑ x ∈ s, a x * (-(Real.sin (x * (r / rb))) * (x * (1 / rb)) * (x * (1 / rb)) * E x t)) r := by
          refine HasDerivAt.fun_sum fun x _ => ?_
          exact ((((hru x r).cos).mul_const _).mul_const _).const_mul _
        exact this.const_add _
      · simp only [hU]
        refine HasDerivAt.const_mul _ ?_
        have : HasDerivAt (fun t : ℝ => ∑ x ∈ s, a x * (Real.sin (x * (r / rb)) * E x t))
            (∑ x ∈ s, a x * (Real.sin (x * (r / rb)) * (E x t * (-(Ds * x ^ 2 / rb ^ 2))))) t :=
          HasDerivAt.fun_sum fun x _ => ((hEt x t).const_mul _).const_mul _
        exact this.const_add _
      · show _ = Ds * (rb * Kd * _)
        rw [mul_left_comm Ds, Finset.mul_sum]
        simp only [Finset.mul_sum]
        refine Finset.sum_congr rfl fun x _ => ?_
        field_simp
    · intro t
      have hflux : Ds * (rb * Kd * ((1 - L) * (1 / rb) + ∑ x ∈ s, a x * (Real.cos (x * (rb / rb)) * (x * (1 / rb)) * E x t)) / rb -
          hsdmU q L Bi Kd Ds rb rb t / rb ^ 2) = Ds * Kd / rb * ∑ x ∈ s, a x * modeD x * E x t := by
        rw [hU1, div_self hr.ne']
        simp only [mul_one]
        have e1 : ∑ x ∈ s, a x * (Real.cos x * (x * (1 / rb)) * E x t) = (∑ x ∈ s, a x * (x * Real.cos x) * E x t) / rb := by
          rw [Finset.sum_div]; exact Finset.sum_congr rfl fun x _ => by ring
        have e2 : ∑ x ∈ s, a x * modeD x * E x t =
            ∑ x ∈ s, a x * (x * Real.cos x) * E x t - ∑ x ∈ s, a x * (Real.sin x * E x t) := by
          rw [← Finset.sum_sub_distrib]
          refine Finset.sum_congr rfl fun x _ => ?_
          unfold modeD
          ring
        rw [e1, e2]
        field_simp
        ring
      refine ⟨?_, ?_, ?_⟩
      · have : HasDerivAt (fun t : ℝ => ∑ x ∈ s, a x * modeY bet x * E x t)
            (∑ x ∈ s, a x * modeY bet x * (E x t * (-(Ds * x ^ 2 / rb ^ 2)))) t :=
          HasDerivAt.fun_sum fun x _ => (hEt x t).const_mul _
        have h2 := this.const_add (1 - L)
        rwa [← funext hC] at h2
      · show _ = kf * (1 - L * hsdmSum q L Bi Ds rb t - _)
        rw [hflux, hC t, hU1]
        have e3 : rb * Kd * ((1 - L) + ∑ x ∈ s, a x * (Real.sin x * E x t)) / rb / Kd =
            (1 - L) + ∑ x ∈ s, a x * (Real.sin x * E x t) := by field_simp
        rw [e3, ← hbeta]
        have e4 : ∑ x ∈ s, a x * modeY bet x * E x t = ∑ x ∈ s, a x * (Real.sin x * E x t) +
            bet * ∑ x ∈ s, a x * modeD x * E x t := by
          rw [Finset.mul_sum, ← Finset.sum_add_distrib]
          refine Finset.sum_congr rfl fun x _ => ?_
          unfold modeY
          ring
        rw [e4]
        ring
      · rw [hflux, Finset.mul_sum, Finset.mul_sum, Finset.mul_sum, ← Finset.sum_neg_distrib]
        refine Finset.sum_congr rfl fun x hx => ?_
        have hmode := (bathMode_iff.1 (hms x hx)).2
        have hkv : Vw = kap * (Vx * Kd) := by rw [hlk]; field_simp
        rw [hkv]
        field_simp
        linear_combination (-(a x * E x t)) * hmode
  · intro t
    rw [hC t]
    unfold Spec.meanLoad
    have hsub : ∫ r in (0 : ℝ)..rb, r * hsdmU q L Bi Kd Ds rb r t =
        rb ^ 3 * Kd * ∫ x in (0 : ℝ)..1, x * ((1 - L) * x + ∑ p ∈ s, a p * (Real.sin (p * x) * E p t)) := by
      have h := intervalIntegral.integral_comp_div (a := (0 : ℝ)) (b := rb)
        (fun y => rb ^ 2 * Kd * (y * ((1 - L) * y + ∑ p ∈ s, a p * (Real.sin (p * y) * E p t)))) hr.ne'
      rw [zero_div, div_self hr.ne', smul_eq_mul] at h
      rw [show rb ^ 3 * Kd = rb * (rb ^ 2 * Kd) by ring, mul_assoc rb, ← intervalIntegral.integral_const_mul, ← h]
      refine intervalIntegral.integral_congr fun r _ => ?_
      show r * hsdmU q L Bi Kd Ds rb r t = _
      rw [hU]
      field_simp
    rw [hsub]
    have hint : ∀ f : ℝ → ℝ, Continuous f → IntervalIntegrable f MeasureTheory.volume 0 1 :=
      fun f hf => hf.intervalIntegrable _ _
    have hexp : ∀ x : ℝ, x * ((1 - L) * x + ∑ p ∈ s, a p * (Real.sin (p * x) * E p t)) =
        (1 - L) * x ^ 2 + ∑ p ∈ s, (a p * E p t) * (x * Real.sin (p * x)) := by
      intro x
      rw [mul_add, Finset.mul_sum]
      congr 1
      · ring
      · exact Finset.sum_congr rfl fun p _ => by ring
    simp only [hexp]
    rw [intervalIntegral.integral_add (hint _ (by fun_prop)) (hint _ (by fun_prop)),
      intervalIntegral.integral_finsetSum (fun p _ => hint _ (by fun_prop)), intervalIntegral.integral_const_mul, integral_pow]
    have e5 : ∑ p ∈ s, ∫ x in (0 : ℝ)..1, (a p * E p t) * (x * Real.sin (p * x)) = -(kap / 3 * ∑ p ∈ s, a p * modeY bet p * E p t) := by
      rw [Finset.mul_sum, ← Finset.sum_neg_distrib]
      refine Finset.sum_congr rfl fun p hp => ?_
      rw [intervalIntegral.integral_const_mul]
      linear_combination (a p * E p t) * mode_orth_zero (hms p hp)
    rw [e5]
    have hkv : Vw = kap * (Vx * Kd) := by rw [hlk]; field_simp
    have hLk : L * (1 + kap) = 1 := by rw [hkap]; field_simp; ring
    set S := ∑ p ∈ s, a p * modeY bet p * E p t
    rw [hkv]
    field_simp
    norm_num
    linear_combination (-3 : ℝ) * hLk

/-- C159. The same for Crank's series, the limit of a film without resistance: with distinct roots as `find_qn` finds them the uptake is
between 0 and 1 from the start. -/
theorem c159_crank {A D ra : ℝ} (hA : 0 < A) (hD : 0 < D) (hr : 0 < ra) {q : List ℝ} (hne : q ≠ []) (hq : q.Nodup)
    (hm : ∀ x ∈ q, 0 < x ∧ Real.cos x ≠ 0 ∧ Spec.CrankRoot A x) {t : ℝ} (ht : 0 ≤ t) :
    0 ≤ finiteSphere q D ra A t ∧ finiteSphere q D ra A t < 1 := by
  obtain ⟨h1, h2, -⟩ := c112_fraction hD hr hA (fun x hx => (hm x hx).1) hne
  refine ⟨?_, h1 t⟩
  refine le_trans ?_ (h2.monotone ht)
  have hmode : ∀ x ∈ q, Spec.BathMode A 0 x := by
    intro x hx
    obtain ⟨x0, hc, hroot⟩ := hm x hx
    refine ⟨x0, ?_⟩
    unfold Spec.CrankRoot at hroot
    have hden : 3 + A * x ^ 2 ≠ 0 := by positivity
    rw [eq_div_iff hden] at hroot
    have hs : Real.sin x = Real.tan x * Real.cos x := (Real.tan_mul_cos hc).symm
    rw [hs]
    linear_combination Real.cos x * hroot
  have hb := mode_bessel hA q.toFinset fun p hp => hmode p (List.mem_toFinset.1 hp)
  have e : ∑ x ∈ q.toFinset, modeA A 0 x * modeY 0 x =
      1 / (1 + A) * (q.map fun x => 6 * A * (A + 1) * Real.exp (-D * 0 * x ^ 2 / ra ^ 2) / (9 + 9 * A + x ^ 2 * A ^ 2)).sum := by
    rw [list_sum_nodup hq, Finset.mul_sum]
    refine Finset.sum_congr rfl fun x hx => ?_
    rw [(modeA_mul hA (hmode x (List.mem_toFinset.1 hx))).1]
    have : (9 + 9 * A + x ^ 2 * A ^ 2) ≠ 0 := by positivity
    have e0 : (9 + 9 * A + A ^ 2 * x ^ 2 - (6 * A + A ^ 2) * x ^ 2 * 0 + A ^ 2 * x ^ 4 * 0 ^ 2) = 9 + 9 * A + x ^ 2 * A ^ 2 := by ring
    rw [e0]
    simp only [mul_zero, zero_mul, zero_div, Real.exp_zero, mul_one]
    field_simp
    ring
  rw [e] at hb
  unfold finiteSphere
  set S := (q.map fun x => 6 * A * (A + 1) * Real.exp (-D * 0 * x ^ 2 / ra ^ 2) / (9 + 9 * A + x ^ 2 * A ^ 2)).sum
  have : S / (1 + A) ≤ 1 / (1 + A) := by
    have h3 : A / (1 + A) = 1 - 1 / (1 + A) := by field_simp; ring
    rw [h3] at hb
    have : 1 / (1 + A) * S = S / (1 + A) := by ring
    linarith
  have := (div_le_div_iff_of_pos_right (by linarith : (0 : ℝ) < 1 + A)).1 this
  linarith

/-- C159. What `get_analytical_sol2` reports for a compound: the curve starts at 1 or below and falls to the equilibrium share. -/
theorem c159_curve {brentq : RootFinder} {dose rho rb : ℝ} (hd : 0 < dose) (hrho : 0 < rho) (hr : 0 < rb)
    {comps : List (ℝ × ℝ × ℝ)} (hc : ∀ c ∈ comps, 0 < c.1 ∧ 0 < c.2.1 ∧ 0 < c.2.2)
    (hroots : ∀ c ∈ comps, ∃ roots, findPn brentq 10 (hsdmLam 1 (dose / (rho * 1e6)) c.2.2) (hsdmBi c.1 c.2.1 rb c.2.2) = some roots ∧
      roots ≠ [] ∧ roots.Nodup ∧ ∀ x ∈ roots, Spec.BathMode (1 / (dose / (rho * 1e6)) / c.2.2) (1 / hsdmBi c.1 c.2.1 rb c.2.2) x) :
    (hsdmCurves brentq dose rho rb comps).length = comps.length ∧
    ∀ i (hi : i < comps.length), ∃ F, (hsdmCurves brentq dose rho rb comps)[i]? = some (some F) ∧
      StrictAnti F ∧ (∀ t, 0 ≤ t → F t ≤ 1) ∧
      Tendsto F atTop (𝓝 (1 / (1 + dose / (rho * 1e6) * comps[i].2.2))) := by
  have hsome : ∀ c ∈ comps, ∃ roots, finiteHsdm brentq c.1 c.2.1 rb 1 (dose / (rho * 1e6)) c.2.2 10 =
      some (hsdmSum roots (hsdmLam 1 (dose / (rho * 1e6)) c.2.2) (hsdmBi c.1 c.2.1 rb c.2.2) c.2.1 rb) ∧
      roots ≠ [] ∧ roots.Nodup ∧ ∀ x ∈ roots, Spec.BathMode (1 / (dose / (rho * 1e6)) / c.2.2) (1 / hsdmBi c.1 c.2.1 rb c.2.2) x := by
    intro c h
    obtain ⟨roots, h1, h2⟩ := hroots c h
    refine ⟨roots, ?_, h2⟩
    unfold finiteHsdm
    rw [h1]
    rfl
  have hall : (comps.map fun c => finiteHsdm brentq c.1 c.2.1 rb 1 (dose / (rho * 1e6)) c.2.2 10).all Option.isSome = true := by
    rw [List.all_eq_true]
    intro o ho
    rw [List.mem_map] at ho
    obtain ⟨c, hcm, rfl⟩ := ho
    obtain ⟨roots, h1, -⟩ := hsome c hcm
    rw [h1]
    rfl
  unfold hsdmCurves
  simp only [hall, if_true]
  refine ⟨by simp, ?_⟩
  intro i hi
  obtain ⟨roots, h1, h2, h3, h4⟩ := hsome comps[i] (List.getElem_mem hi)
  obtain ⟨hkf, hDs, hK⟩ := hc comps[i] (List.getElem_mem hi)
  have hv : 0 < dose / (rho * 1e6) := by positivity
  obtain ⟨hl0, hl1, hlk⟩ := lam_kap one_pos hv hK
  rw [← hlk] at h4
  obtain ⟨f1, f2, f3, f4⟩ := c159_fraction hl0 hl1 hDs hr h2 h3 h4
  have hA : 0 < pacA dose rho comps[i].2.2 := by unfold pacA; positivity
  have hdep : 0 < pacDepl (pacA dose rho comps[i].2.2) := by unfold pacDepl; positivity
  refine ⟨fun t => 1 - hsdmSum roots (hsdmLam 1 (dose / (rho * 1e6)) comps[i].2.2) (hsdmBi comps[i].1 comps[i].2.1 rb comps[i].2.2)
    comps[i].2.1 rb t * pacDepl (pacA dose rho comps[i].2.2), ?_, ?_, ?_, ?_⟩
  · rw [List.getElem?_map, List.getElem?_zip_eq_some (z := (finiteHsdm brentq comps[i].1 comps[i].2.1 rb 1 (dose / (rho * 1e6)) comps[i].2.2 10, comps[i])) |>.2
      ⟨by rw [List.getElem?_map, List.getElem?_eq_getElem hi]; rfl,
      List.getElem?_eq_getElem hi⟩]
    simp only [Option.map_some]
    rw [h1]
    rfl
  · intro s t hst
    have := mul_lt_mul_of_pos_right (f3 hst) hdep
    simp only []
    linarith
  · intro t ht
    have := mul_nonneg (f1 t ht) hdep.le
    simp only []
    linarith
  · have h := (f4.mul_const (pacDepl (pacA dose rho comps[i].2.2))).const_sub 1
    have e : 1 - 1 * pacDepl (pacA dose rho comps[i].2.2) = 1 / (1 + dose / (rho * 1e6) * comps[i].2.2) := by
      unfold pacDepl pacA
      field_simp
      ring
    rw [e] at h
    exact h

/-- Distinct modes exist: those of `c158_partial`, e.g. half adsorbed, Biot number 2. -/
example : ∃ q : List ℝ, q ≠ [] ∧ q.Nodup ∧ ∀ x ∈ q, Spec.BathMode ((1 - 1 / 2) / (1 / 2)) (1 / 2) x := by
  obtain ⟨p, -, -, -, hp, -⟩ := pn_bracket (A := 1 / 2) (B := 2) (k := 0) (by norm_num) (by norm_num) (by norm_num) (by norm_num) (by norm_num)
  exact ⟨[p], by simp, by simp, by simpa using hp⟩

/-- A dose of 20 mg/L of a carbon of 0.5 g/mL and 10 um radius, half of the compound adsorbed: the curve is as stated. -/
example : ∃ F, hsdmCurves idealBrent 20 0.5 0.001 [(5e-3, 1e-10, 25000)] = [some F] ∧ StrictAnti F ∧ (∀ t, 0 ≤ t → F t ≤ 1) := by
  have e1 : hsdmLam 1 (20 / (0.5 * 1e6)) 25000 = 1 / 2 := by unfold hsdmLam; norm_num
  have e2 : hsdmBi 5e-3 1e-10 0.001 25000 = 2 := by unfold hsdmBi; norm_num
  have hsplit : ¬ Spec.BathMode ((1 - 1 / 2) / (1 / 2)) (1 / 2) ((Real.pi / 2 + 0.000001 + Real.pi * 0.9999) / 2) := split_not_mode
  obtain ⟨roots, h1, h2, h3⟩ := c158_partial (A := 1 / 2) (B := 2) (n := 10) idealBrent_ok (by norm_num) (by norm_num) (by norm_num)
    (by norm_num) (by norm_num) (by norm_num) hsplit
  obtain ⟨hl, h⟩ := c159_curve (brentq := idealBrent) (dose := 20) (rho := 0.5) (rb := 0.001) (comps := [(5e-3, 1e-10, 25000)])
    (by norm_num) (by norm_num) (by norm_num) (by intro c hc; rw [List.mem_singleton] at hc; subst hc; norm_num) (by
      intro c hc
      rw [List.mem_singleton] at hc
      subst hc
      simp only []
      rw [e1, e2]
      refine ⟨roots, h1, ?_, h3.1.imp fun h => ne_of_lt h, ?_⟩
      · intro h; rw [h] at h2; simp at h2
      · have e3 : (1 : ℝ) / (20 / (0.5 * 1e6)) / 25000 = (1 - 1 / 2) / (1 / 2) := by norm_num
        rw [e3]
        exact h3.2.1)
  obtain ⟨F, f1, f2, f3, -⟩ := h 0 (by simp)
  refine ⟨F, ?_, f2, f3⟩
  cases hc : hsdmCurves idealBrent 20 0.5 0.001 [(5e-3, 1e-10, 25000)] with
  | nil => rw [hc] at f1; cases f1
  | cons x xs =>
    rw [hc] at f1 hl
    simp only [List.length_cons, List.length_nil, List.getElem?_cons_zero, Option.some.injEq] at f1 hl
    have : xs = [] := List.length_eq_zero_iff.1 (by omega)
    rw [this, f1]

end

end WTM
