import Verif.Lemmas.MixedBead
import Verif.Props.IonLimit

/-! Property C265: near exhaustion an ion exchange column with any number of ions of different mobilities tends to it exponentially, if the
mobilities do not differ too much for the share of the presaturant in water and resin. -/
set_option autoImplicit false
namespace WTM
open BigOperators Set Topology Filter

section forms
variable {p : ℕ}

/-- The excess of the presaturant makes up for the others. -/
noncomputable def refill (x : Fin p → ℝ) : Fin (p + 1) → ℝ := Fin.cons (-∑ i, x i) x

theorem refill_zero (x : Fin p → ℝ) : refill x 0 = -∑ i, x i := rfl

theorem refill_succ (x : Fin p → ℝ) (i : Fin p) : refill x i.succ = x i := rfl

theorem refill_sum (x : Fin p → ℝ) : ∑ a, refill x a = 0 := by
  rw [Fin.sum_univ_succ]
  simp only [refill_zero, refill_succ]
  ring

noncomputable def refillCL : (Fin p → ℝ) →L[ℝ] (Fin (p + 1) → ℝ) :=
  ContinuousLinearMap.pi (Fin.cons (-∑ i, ContinuousLinearMap.proj (R := ℝ) (φ := fun _ : Fin p => ℝ) i)
    fun i => ContinuousLinearMap.proj (R := ℝ) (φ := fun _ : Fin p => ℝ) i)

theorem refillCL_apply (x : Fin p → ℝ) : refillCL x = refill x := by
  funext a
  refine Fin.cases ?_ (fun i => ?_) a
  · simp [refillCL, refill]
  · simp [refillCL, refill]

/-- Specification: mobilities `b` that do not differ too much for the share of the presaturant in the equivalents `w`. -/
def Spec.Mild (w : Fin (p + 1) → ℝ) (b : Fin p → ℝ) : Prop :=
  (∀ i, 0 < b i) ∧ ∃ s, 0 < s ∧ ∑ i, w i.succ * ((s - b i) ^ 2 / b i) < 4 * s * w 0

/-- C265. Mobilities within a factor `ρ ^ 2` of one another are mild if the presaturant has enough of a share. -/
theorem c265_spread {w : Fin (p + 1) → ℝ} (hw : ∀ a, 0 < w a) {b : Fin p → ℝ} {l ρ : ℝ} (hl : 0 < l) (hρ : 1 ≤ ρ)
    (hb : ∀ i, l ≤ b i ∧ b i ≤ ρ ^ 2 * l) (h : (ρ - 1) ^ 2 * ∑ i : Fin p, w i.succ < 4 * ρ * w 0) : Spec.Mild w b := by
  have hρ0 : 0 < ρ := by linarith
  have hb0 : ∀ i, 0 < b i := fun i => hl.trans_le (hb i).1
  refine ⟨hb0, ρ * l, mul_pos hρ0 hl, ?_⟩
  have key : ∀ i, w i.succ * ((ρ * l - b i) ^ 2 / b i) ≤ w i.succ * ((ρ - 1) ^ 2 * l) := by
    intro i
    refine mul_le_mul_of_nonneg_left ?_ (hw _).le
    rw [div_le_iff₀ (hb0 i)]
    have h1 := sub_nonneg.2 (hb i).1
    have h2 := sub_nonneg.2 (hb i).2
    nlinarith [mul_nonneg h1 h2]
  calc ∑ i, w i.succ * ((ρ * l - b i) ^ 2 / b i) ≤ ∑ i : Fin p, w i.succ * ((ρ - 1) ^ 2 * l) := Finset.sum_le_sum fun i _ => key i
    _ = (ρ - 1) ^ 2 * (∑ i : Fin p, w i.succ) * l := by rw [← Finset.sum_mul]; ring
    _ < 4 * ρ * w 0 * l := mul_lt_mul_of_pos_right h hl
    _ = 4 * (ρ * l) * w 0 := by ring

/-- C265. Equal mobilities are mild, whatever the shares. -/
theorem c265_equal {w : Fin (p + 1) → ℝ} (hw : ∀ a, 0 < w a) {b : Fin p → ℝ} {l : ℝ} (hl : 0 < l) (hb : ∀ i, b i = l) : Spec.Mild w b :=
  c265_spread hw hl le_rfl (fun i => by rw [hb]; constructor <;> nlinarith) (by have := hw 0; simp; linarith)

/-- Mild mobilities take away from this form. -/
theorem mild_pos {w : Fin (p + 1) → ℝ} (hw : ∀ a, 0 < w a) {b : Fin p → ℝ} (h : Spec.Mild w b) {x : Fin p → ℝ} (hx : x ≠ 0) :
    0 < ∑ a, 1 / w a * (refill x a * refill (fun i => b i * x i) a) := by
  obtain ⟨hb, s, hs, hS⟩ := h
  rw [Fin.sum_univ_succ]
  simp only [refill_zero, refill_succ]
  set X := ∑ i, x i with hX
  set Y := ∑ i, b i * x i with hY
  set S := ∑ i, w i.succ * ((s - b i) ^ 2 / b i) with hSd
  set Z := ∑ i : Fin p, 1 / w i.succ * (x i * (b i * x i)) with hZ
  have hn : ∀ i ∈ Finset.univ, 0 ≤ 1 / w (Fin.succ i) * (x i * (b i * x i)) := fun i _ => by
    have := hw i.succ
    have := (hb i).le
    have h1 := mul_self_nonneg (x i)
    have : x i * (b i * x i) = b i * (x i * x i) := by ring
    rw [this]
    positivity
  have hZ0 : 0 < Z := by
    refine lt_of_le_of_ne (Finset.sum_nonneg hn) fun h0 => hx ?_
    have := (Finset.sum_eq_zero_iff_of_nonneg hn).1 h0.symm
    funext i
    have h1 := (mul_eq_zero.1 (this i (Finset.mem_univ i))).resolve_left (one_div_pos.2 (hw _)).ne'
    rcases mul_eq_zero.1 h1 with h2 | h2
    · exact h2
    · exact (mul_eq_zero.1 h2).resolve_left (hb i).ne'
  have hcs : (s * X - Y) ^ 2 ≤ S * Z := by
    have h1 := Finset.sum_sq_le_sum_mul_sum_of_sq_eq_mul Finset.univ (r := fun i => (s - b i) * x i)
      (f := fun i : Fin p => w i.succ * ((s - b i) ^ 2 / b i)) (g := fun i => 1 / w i.succ * (x i * (b i * x i)))
      (fun i _ => by have := hw i.succ; have := hb i; positivity) hn (fun i _ => by
        have := (hw i.succ).ne'
        have := (hb i).ne'
        field_simp)
    have h2 : ∑ i, (s - b i) * x i = s * X - Y := by
      rw [hX, hY, Finset.mul_sum, ← Finset.sum_sub_distrib]
      exact Finset.sum_congr rfl fun i _ => by ring
    rw [h2] at h1
    exact h1
  have hw0 := hw 0
  have hXY : -(S * Z) ≤ 4 * s * (X * Y) := by nlinarith [sq_nonneg (s * X + Y)]
  have h3 : 0 < 4 * s * w 0 * (1 / w 0 * (-X * -Y) + Z) := by
    have e : 4 * s * w 0 * (1 / w 0 * (-X * -Y) + Z) = 4 * s * (X * Y) + 4 * s * w 0 * Z := by field_simp
    rw [e]
    nlinarith [mul_pos (sub_pos.2 hS) hZ0]
  exact (mul_pos_iff_of_pos_left (by positivity)).1 h3

/-- The form of the others of the weights `1 / w`. -/
noncomputable def refillH (w : Fin (p + 1) → ℝ) (i j : Fin p) : ℝ := (if i = j then 1 / w i.succ else 0) + 1 / w 0

theorem refillH_form (w : Fin (p + 1) → ℝ) (x y : Fin p → ℝ) : hform (refillH w) x y = ∑ a, 1 / w a * (refill x a * refill y a) := by
  rw [Fin.sum_univ_succ]
  simp only [refill_zero, refill_succ]
  unfold hform refillH
  simp only [add_mul, Finset.sum_add_distrib, ite_mul, zero_mul, Finset.sum_ite_eq, Finset.mem_univ, if_true]
  rw [add_comm]
  congr 1
  rw [neg_mul_neg, Finset.sum_mul_sum, Finset.mul_sum]
  exact Finset.sum_congr rfl fun i _ => by rw [Finset.mul_sum]

end forms

section
variable {r p z : ℕ} {m : ColModel} {P : ColParams r p z} {jac : Fin r → ℝ} {tH : ℝ} {cin q : Fin (p + 1) → ℝ} {Q : ℝ}

/-- Specification: a column whose ions have mild film coefficients and diffusivities. -/
structure Spec.MildColumn (m : ColModel) (P : ColParams r p z) (jac : Fin r → ℝ) (tH : ℝ) (cin q : Fin (p + 1) → ℝ) : Prop
    extends Spec.IonColumn m P jac tH where
  film : Spec.Mild (fun i => P.val i * cin i) fun i => P.kL i.succ
  surface : Spec.Mild (fun i => P.val i * q i) fun i => P.Ds i.succ
  pore : m = .psdm → (∀ i : Fin p, P.Dp i.succ = P.Ds i.succ) ∨ Spec.Mild (fun i => P.val i * cin i) fun i => P.Dp i.succ - P.Ds i.succ

theorem mild_val (h : Spec.IonColumn m P jac tH) (i : Fin (p + 1)) : (0 : ℝ) < P.val i := by
  rcases h.valence.2 i with e | e <;> rw [e] <;> norm_num

/-- Pore concentrations of the excesses `x` of the ions but the presaturant. -/
noncomputable def redIso (m : ColModel) (P : ColParams r p z) (cin q : Fin (p + 1) → ℝ) (x : Fin p → ℝ) (i : Fin p) : ℝ :=
  ceq P.K P.val (fun l => m.load P (q l + refill x l)) (∑ l, cin l) i.succ - cin i.succ

theorem redIso_eq (x : Fin p → ℝ) (i : Fin p) : redIso m P cin q x i = ionIso m P cin q (refillCL x) i.succ := by
  unfold redIso ionIso implicitRef
  rw [refillCL_apply, refill_sum, zero_mul, add_zero, if_neg (Fin.succ_ne_zero i)]

theorem redIso_zero (h : Spec.IonColumn m P jac tH) (hc : ∀ i, 0 < cin i) (hq : Spec.SpentLoadings m P cin Q q) : redIso m P cin q 0 = 0 := by
  funext i
  rw [redIso_eq, map_zero, ionIso_zero h hc hq]
  rfl

theorem redIso_smooth (h : Spec.IonColumn m P jac tH) (hc : ∀ i, 0 < cin i) (hq : Spec.SpentLoadings m P cin Q q) :
    ContDiffAt ℝ 1 (redIso m P cin q) 0 := by
  refine contDiffAt_pi.2 fun i => ?_
  simp only [redIso_eq]
  have h1 : ContDiffAt ℝ 1 (ionIso m P cin q) (refillCL (0 : Fin p → ℝ)) := by rw [map_zero]; exact ionIso_smooth h hc hq
  exact contDiffAt_pi.1 (h1.comp (0 : Fin p → ℝ) refillCL.contDiff.contDiffAt) i.succ

theorem redIso_slope (h : Spec.IonColumn m P jac tH) (hc : ∀ i, 0 < cin i) (hq : Spec.SpentLoadings m P cin Q q) (x : Fin p → ℝ)
    (a : Fin (p + 1)) : refill (fderiv ℝ (redIso m P cin q) 0 x) a =
      cin a * (refill x a / q a - P.val a * ((∑ j, cin j / q j * refill x j) / ∑ j, P.val j * cin j)) := by
  have hV : 0 < ∑ j, P.val j * cin j := Finset.sum_pos (fun j _ => mul_pos (mild_val h j) (hc j)) Finset.univ_nonempty
  have hi : ∀ i : Fin p, fderiv ℝ (redIso m P cin q) 0 x i =
      cin i.succ * (refill x i.succ / q i.succ - P.val i.succ * ((∑ j, cin j / q j * refill x j) / ∑ j, P.val j * cin j)) := by
    intro i
    have h1 : HasFDerivAt (ionIso m P cin q) (fderiv ℝ (ionIso m P cin q) 0) (refillCL (0 : Fin p → ℝ)) := by
      rw [map_zero]
      exact ((ionIso_smooth h hc hq).differentiableAt (by norm_num)).hasFDerivAt
    have h2 := hasFDerivAt_pi'.1 (h1.comp (0 : Fin p → ℝ) refillCL.hasFDerivAt) i.succ
    have h3 := hasFDerivAt_pi'.1 ((redIso_smooth h hc hq).differentiableAt (by norm_num)).hasFDerivAt i
    have h4 : (fun x => redIso m P cin q x i) = fun x => (ionIso m P cin q ∘ refillCL) x i.succ := funext fun x => redIso_eq x i
    rw [h4] at h3
    have h5 := congrArg (fun L => L x) (h3.unique h2)
    have h6 : fderiv ℝ (redIso m P cin q) 0 x i = fderiv ℝ (ionIso m P cin q) 0 (refillCL x) i.succ := h5
    rw [h6, ionIso_slope h hc hq, refillCL_apply, refill_sum]
    ring
  refine Fin.cases ?_ (fun i => hi i) a
  rw [refill_zero]
  simp only [hi]
  set s := (∑ j, cin j / q j * refill x j) / ∑ j, P.val j * cin j with hs
  have e : ∑ a, cin a * (refill x a / q a - P.val a * s) = 0 := by
    have e1 : ∑ a, cin a * (refill x a / q a - P.val a * s) = ∑ j, cin j / q j * refill x j - s * ∑ j, P.val j * cin j := by
      rw [Finset.mul_sum, ← Finset.sum_sub_distrib]
      exact Finset.sum_congr rfl fun a _ => by ring
    rw [e1, hs, div_mul_cancel₀ _ hV.ne', sub_self]
  rw [Fin.sum_univ_succ] at e
  linarith

/-- The slope in the form of the water is the form of the resin. -/
theorem redIso_pair (h : Spec.IonColumn m P jac tH) (hc : ∀ i, 0 < cin i) (hq : Spec.SpentLoadings m P cin Q q) (x y : Fin p → ℝ) :
    hform (refillH fun i => P.val i * cin i) (fderiv ℝ (redIso m P cin q) 0 x) y =
      ∑ a, 1 / (P.val a * q a) * (refill x a * refill y a) := by
  rw [refillH_form]
  simp only [redIso_slope h hc hq]
  set s := (∑ j, cin j / q j * refill x j) / ∑ j, P.val j * cin j
  have e : ∀ a, 1 / (P.val a * cin a) * (cin a * (refill x a / q a - P.val a * s) * refill y a) =
      1 / (P.val a * q a) * (refill x a * refill y a) - s * refill y a := by
    intro a
    have h1 := (mild_val h a).ne'
    have h2 := (hc a).ne'
    have h3 := (hq.pos a).ne'
    field_simp
  simp only [e, Finset.sum_sub_distrib, ← Finset.mul_sum, refill_sum, mul_zero, sub_zero]

theorem refill_ne {x : Fin p → ℝ} {w : Fin (p + 1) → ℝ} (hw : ∀ a, 0 < w a) (hx : x ≠ 0) : 0 < ∑ a, 1 / w a * (refill x a * refill x a) := by
  have := mild_pos hw (c265_equal hw one_pos fun _ => rfl) hx
  simpa only [one_mul] using this

/-- Coefficients of diffusion in pores and on surfaces, and of the films. -/
noncomputable def redAlpha (m : ColModel) (P : ColParams r p z) (tH : ℝ) (i : Fin p) : ℝ := ionAlpha m P tH (P.Ds i.succ) (P.Dp i.succ)

theorem refill_smul (c : ℝ) (x : Fin p → ℝ) (a : Fin (p + 1)) : refill (fun i => c * x i) a = c * refill x a := by
  refine Fin.cases ?_ (fun i => rfl) a
  simp only [refill_zero, ← Finset.mul_sum]
  ring

theorem red_alpha (h : Spec.MildColumn m P jac tH cin q) (hc : ∀ i, 0 < cin i) (g : Fin p → ℝ) :
    0 ≤ ∑ a, 1 / (P.val a * cin a) * (refill g a * refill (fun i => redAlpha m P tH i * g i) a) := by
  have hzero : (∀ i, redAlpha m P tH i = 0) → 0 ≤ ∑ a, 1 / (P.val a * cin a) * (refill g a * refill (fun i => redAlpha m P tH i * g i) a) := by
    intro h0
    have : ∀ a, refill (fun i => redAlpha m P tH i * g i) a = 0 := by
      intro a
      refine Fin.cases ?_ (fun i => ?_) a
      · simp [refill_zero, h0]
      · simp [refill_succ, h0]
    simp only [this, mul_zero, Finset.sum_const_zero]
    exact le_rfl
  have hpore := h.pore
  have hpores := h.pores
  cases m with
  | hsdm => exact hzero fun _ => rfl
  | psdm =>
    rcases hpore rfl with h1 | h1
    · exact hzero fun i => by unfold redAlpha ionAlpha; simp [h1 i]
    · by_cases hg : g = 0
      · subst hg
        have : ∀ a, refill (0 : Fin p → ℝ) a = 0 := fun a => by refine Fin.cases ?_ (fun i => rfl) a; simp [refill_zero]
        simp [this]
      · have hpos := mild_pos (fun a => mul_pos (mild_val h.toIonColumn a) (hc a)) h1 hg
        have e : (fun i => redAlpha .psdm P tH i * g i) = fun i => tH * P.EPOR / P.rb ^ 2 * ((P.Dp i.succ - P.Ds i.succ) * g i) := by
          funext i
          unfold redAlpha ionAlpha
          ring
        rw [e]
        simp only [refill_smul]
        have hE := (hpores rfl).1
        have ht := h.time
        have hb := h.size
        have e2 : ∀ a, 1 / (P.val a * cin a) * (refill g a * (tH * P.EPOR / P.rb ^ 2 * refill (fun i => (P.Dp i.succ - P.Ds i.succ) * g i) a)) =
            tH * P.EPOR / P.rb ^ 2 * (1 / (P.val a * cin a) * (refill g a * refill (fun i => (P.Dp i.succ - P.Ds i.succ) * g i) a)) := fun a => by ring
        simp only [e2, ← Finset.mul_sum]
        exact mul_nonneg (by positivity) hpos.le

theorem red_slope (h : Spec.MildColumn m P jac tH cin q) (hc : ∀ i, 0 < cin i) (hq : Spec.SpentLoadings m P cin Q q) :
    FormSlope (refillH fun i => P.val i * cin i) refillCL (fun a => 1 / (P.val a * cin a)) (fderiv ℝ (redIso m P cin q) 0)
      (redAlpha m P tH) (fun i => P.Ds i.succ * tH / P.rb ^ 2) (fun i => tH * P.kL i.succ / P.rb) := by
  have hvc : ∀ a, 0 < P.val a * cin a := fun a => mul_pos (mild_val h.toIonColumn a) (hc a)
  have hvq : ∀ a, 0 < P.val a * q a := fun a => mul_pos (mild_val h.toIonColumn a) (hq.pos a)
  have ht := h.time
  have hb := h.size
  refine ⟨fun x y => ?_, fun a => (one_div_pos.2 (hvc a)).le, fun x hx => ?_, fun x y => ?_, fun x hx => ?_, fun x hx => ?_, fun x hx => ?_⟩
  · rw [refillH_form]
    simp only [refillCL_apply]
  · by_contra hn
    rw [refillH_form] at hx
    exact (refill_ne hvc hn).ne' hx
  · rw [redIso_pair h.toIonColumn hc hq, redIso_pair h.toIonColumn hc hq]
    exact Finset.sum_congr rfl fun a _ => by ring
  · rw [redIso_pair h.toIonColumn hc hq]
    exact refill_ne hvq hx
  · have e : (fun i => redAlpha m P tH i * fderiv ℝ (redIso m P cin q) 0 x i + P.Ds i.succ * tH / P.rb ^ 2 * x i) =
        (fun i => redAlpha m P tH i * fderiv ℝ (redIso m P cin q) 0 x i) + fun i => tH / P.rb ^ 2 * (P.Ds i.succ * x i) := by
      funext i
      simp only [Pi.add_apply]
      ring
    rw [e, hform_add_right, refillH_form, redIso_pair h.toIonColumn hc hq]
    refine add_pos_of_nonneg_of_pos (red_alpha h hc _) ?_
    simp only [refill_smul]
    have e2 : ∀ a, 1 / (P.val a * q a) * (refill x a * (tH / P.rb ^ 2 * refill (fun i => P.Ds i.succ * x i) a)) =
        tH / P.rb ^ 2 * (1 / (P.val a * q a) * (refill x a * refill (fun i => P.Ds i.succ * x i) a)) := fun a => by ring
    simp only [e2, ← Finset.mul_sum]
    exact mul_pos (by positivity) (mild_pos hvq h.surface hx)
  · rw [refillH_form]
    have e : (fun i => tH * P.kL i.succ / P.rb * x i) = fun i => tH / P.rb * (P.kL i.succ * x i) := funext fun i => by ring
    rw [e]
    simp only [refill_smul]
    have e2 : ∀ a, 1 / (P.val a * cin a) * (refill x a * (tH / P.rb * refill (fun i => P.kL i.succ * x i) a)) =
        tH / P.rb * (1 / (P.val a * cin a) * (refill x a * refill (fun i => P.kL i.succ * x i) a)) := fun a => by ring
    simp only [e2, ← Finset.mul_sum]
    exact mul_pos (by positivity) (mild_pos hvc h.film hx)

/-- Excesses of the ions but the presaturant. -/
noncomputable def redExc (cin q : Fin (p + 1) → ℝ) (u : ColState r p z) : MBed (MBead p r) p z :=
  (fun i k => u k.succ i.succ 0 - q i.succ, fun w => (fun i k => u k.succ i.succ w.succ - q i.succ, fun i => u 0 i.succ w.succ - cin i.succ))

/-- Excesses of all ions. -/
noncomputable def mext (v : MBed (MBead p r) p z) : MBed (MBead (p + 1) r) (p + 1) z :=
  (fun i k => refill (fun j => v.1 j k) i, fun w => (fun i k => refill (fun j => (v.2 w).1 j k) i, refill (v.2 w).2))

theorem mext_sum (v : MBed (MBead p r) p z) : msum (mext v) = 0 := by
  refine Prod.ext (funext fun _ => funext fun k => ?_) (funext fun w => Prod.ext (funext fun _ => funext fun k => ?_) (funext fun _ => ?_))
  · exact refill_sum _
  · exact refill_sum _
  · exact refill_sum _

theorem redExc_state (e : Fin (p + 1) → ℝ) (v : MBed (MBead p r) p z) : redExc cin q (ionState cin q e (mext v)) = v := by
  refine Prod.ext (funext fun i => funext fun k => ?_) (funext fun w => Prod.ext (funext fun i => funext fun k => ?_) (funext fun i => ?_))
  · simp [redExc, ionState, mext, refill_succ]
  · simp [redExc, ionState, mext, refill_succ]
  · simp [redExc, ionState, mext, refill_succ]

theorem mext_exc (hq : ∑ i, q i = Q) {u : ColState r p z} (hu : Spec.Totals (∑ i, cin i) Q u) : mext (redExc cin q u) = ionExc cin q u := by
  refine msum_ext ?_ (fun j k => rfl) (fun w j k => rfl) (fun w j => rfl)
  rw [mext_sum, ionExc_sum hq hu]

theorem refill_bound {x : Fin p → ℝ} {ε : ℝ} (hε : 0 ≤ ε) (hx : ∀ i, |x i| ≤ ε) (a : Fin (p + 1)) : |refill x a| ≤ (p + 1) * ε := by
  have hp : (0 : ℝ) ≤ p := Nat.cast_nonneg p
  refine Fin.cases ?_ (fun i => ?_) a
  · rw [refill_zero, abs_neg]
    refine (Finset.abs_sum_le_sum_abs _ _).trans ((Finset.sum_le_sum fun i _ => hx i).trans ?_)
    rw [Finset.sum_const, Finset.card_univ, Fintype.card_fin, nsmul_eq_mul]
    nlinarith
  · rw [refill_succ]
    exact (hx i).trans (by nlinarith)

theorem redExc_norm {ε : ℝ} (hε : 0 ≤ ε) {u : ColState r p z} (h : Spec.IonWithin cin q ε u) : ‖redExc cin q u‖ ≤ ε := by
  rw [norm_prod_le_iff, pi_norm_le_iff_of_nonneg hε, pi_norm_le_iff_of_nonneg hε]
  simp only [norm_prod_le_iff, pi_norm_le_iff_of_nonneg hε, redExc, Real.norm_eq_abs]
  exact ⟨fun i k => h.2 k i.succ 0, fun w => ⟨fun i k => h.2 k i.succ w.succ, fun i => h.1 i.succ _ (Fin.succ_ne_zero w)⟩⟩

theorem redExc_within (hq : ∑ i, q i = Q) {u : ColState r p z} (hu : Spec.Totals (∑ i, cin i) Q u) {ε : ℝ} (hε : 0 ≤ ε)
    (h : ‖redExc cin q u‖ ≤ ε) : Spec.IonWithin cin q ((p + 1) * ε) u := by
  have hε' : 0 ≤ ((p : ℝ) + 1) * ε := by positivity
  rw [norm_prod_le_iff, pi_norm_le_iff_of_nonneg hε, pi_norm_le_iff_of_nonneg hε] at h
  simp only [norm_prod_le_iff, pi_norm_le_iff_of_nonneg hε, Real.norm_eq_abs] at h
  rw [← ionExc_norm hε', ← mext_exc hq hu, norm_prod_le_iff, pi_norm_le_iff_of_nonneg hε', pi_norm_le_iff_of_nonneg hε']
  simp only [norm_prod_le_iff, pi_norm_le_iff_of_nonneg hε', Real.norm_eq_abs]
  exact ⟨fun i k => refill_bound hε (fun j => h.1 j k) i, fun w => ⟨fun i k => refill_bound hε (fun j => (h.2 w).1 j k) i,
    fun i => refill_bound hε (fun j => (h.2 w).2 j) i⟩⟩

/-- Rates of one axial point. -/
noncomputable def redPt (m : ColModel) (P : ColParams r p z) (tH : ℝ) (cin q : Fin (p + 1) → ℝ) : MPt (MBead p r) p → MPt (MBead p r) p :=
  ptRhs (redIso m P cin q) (redAlpha m P tH) (fun i => P.Ds i.succ * tH / P.rb ^ 2) (fun i => tH * P.kL i.succ / P.rb)
    (fun _ => 3 * (1 - P.EBED) / P.EBED) P.Br P.Wr

/-- Rates of a state in the same arrangement. -/
noncomputable def redRates (m : ColModel) (P : ColParams r p z) (tH : ℝ) (cin : Fin (p + 1) → ℝ) (u : ColState r p z) : MBed (MBead p r) p z :=
  (fun i k => m.rhs P tH cin u k.succ i.succ 0,
    fun w => (fun i k => m.rhs P tH cin u k.succ i.succ w.succ, fun i => m.rhs P tH cin u 0 i.succ w.succ))

/-- The rates are those of a column with this isotherm. -/
theorem red_rates (h : Spec.IonColumn m P jac tH) (hq : ∑ i, q i = Q) {u : ColState r p z} (hu : Spec.Totals (∑ i, cin i) Q u) :
    redRates m P tH cin u = mbedRhs (redPt m P tH cin q) (P.v * tH / (P.L * P.EBED)) P.Az (redExc cin q u) := by
  have hE := h.bed.1.ne'
  have hL := h.flow.2.ne'
  have hb := h.size.ne'
  have hiso : ∀ (j : Fin p) (k : Fin (r + 1)) w, redIso m P cin q (fun l => u k.succ l.succ w - q l.succ) j =
      ceq P.K P.val (fun l => m.load P (u k.succ l w)) (∑ l, cin l) j.succ - cin j.succ := by
    intro j k w
    have e : ∀ l, q l + refill (fun l : Fin p => u k.succ l.succ w - q l.succ) l = u k.succ l w := by
      intro l
      refine Fin.cases ?_ (fun i => ?_) l
      · have h1 := hu.beads k w
        have h2 := hq
        rw [Fin.sum_univ_succ] at h1 h2
        rw [refill_zero, Finset.sum_sub_distrib]
        linarith
      · rw [refill_succ]
        ring
    unfold redIso
    simp only [e]
  have hflux : ∀ (j : Fin p) w, m.flux P (setInlet u cin) j.succ w = -(P.kL j.succ * (setInlet u cin 0 j.succ w - cin j.succ -
      redIso m P cin q (fun l => u (Fin.last r).succ l.succ w - q l.succ) j)) := by
    intro j w
    unfold ColModel.flux fluxJ implicitRef
    rw [if_neg (Fin.succ_ne_zero j), plain_total hu, hiso]
    beta_reduce
    rw [← Fin.succ_last]
    simp only [setInlet_bead]
    ring
  have hbead : ∀ (k : Fin (r + 1)) (j : Fin p) w, m.bead P tH (setInlet u cin) k j.succ w =
      ∑ l, P.Br k l * (1 * (redAlpha m P tH j * redIso m P cin q (fun i => u l.succ i.succ w - q i.succ) j +
        P.Ds j.succ * tH / P.rb ^ 2 * (u l.succ j.succ w - q j.succ))) := by
    intro k j w
    have e : ∀ l, P.Br k l * (1 * (redAlpha m P tH j * redIso m P cin q (fun i => u l.succ i.succ w - q i.succ) j +
        P.Ds j.succ * tH / P.rb ^ 2 * (u l.succ j.succ w - q j.succ))) =
        redAlpha m P tH j * (P.Br k l * ceq P.K P.val (fun i => m.load P (u l.succ i w)) (∑ i, cin i) j.succ) +
          P.Ds j.succ * tH / P.rb ^ 2 * (P.Br k l * u l.succ j.succ w) -
          (redAlpha m P tH j * cin j.succ + P.Ds j.succ * tH / P.rb ^ 2 * q j.succ) * P.Br k l := by
      intro l
      rw [hiso]
      ring
    simp only [e, Finset.sum_sub_distrib, Finset.sum_add_distrib, ← Finset.mul_sum]
    rw [h.grid.rows, mul_zero, sub_zero]
    cases m with
    | hsdm =>
      show hsdmBead P tH _ k j.succ w = _
      unfold hsdmBead implicitRef redAlpha ionAlpha
      rw [if_neg (Fin.succ_ne_zero j)]
      beta_reduce
      simp only [setInlet_bead, zero_mul, zero_add]
    | psdm =>
      show psdmBead P tH _ k j.succ w = _
      have hpc : ∀ l, poreConc P (setInlet u cin) l j.succ w =
          ceq P.K P.val (fun i => ColModel.psdm.load P (u l.succ i w)) (∑ i, cin i) j.succ := by
        intro l
        unfold poreConc
        rw [plain_total hu]
        simp only [setInlet_bead]
        rfl
      unfold psdmBead implicitRef redAlpha ionAlpha
      rw [if_neg (Fin.succ_ne_zero j)]
      beta_reduce
      simp only [setInlet_bead, hpc]
      ring
  refine Prod.ext (funext fun j => funext fun k' => ?_) (funext fun w => Prod.ext (funext fun j => funext fun k' => ?_) (funext fun j => ?_))
  · show m.rhs P tH cin u k'.succ j.succ 0 = _
    rw [rhs_eq, assemble_bead]
    simp only [mbedRhs, redPt, ptRhs, ptLin, mpore, redExc, beadL, surf, Pi.add_apply, Pi.smul_apply, smul_eq_mul, hflux, hbead, Pi.zero_apply]
    have e0 : setInlet u cin 0 j.succ 0 = cin j.succ := by simp [setInlet]
    by_cases hk : k' = Fin.last r
    · simp only [hk, if_true]
      rw [e0]
      ring
    · simp only [if_neg hk, mul_zero, add_zero]
  · show m.rhs P tH cin u k'.succ j.succ w.succ = _
    rw [rhs_eq, assemble_bead]
    simp only [mbedRhs, redPt, ptRhs, ptLin, mpore, redExc, beadL, surf, Pi.add_apply, Pi.smul_apply, smul_eq_mul, hflux, hbead, Pi.zero_apply,
      Prod.fst_sub, Pi.sub_apply, sub_zero]
    have e0 : setInlet u cin 0 j.succ w.succ = u 0 j.succ w.succ := by simp [setInlet]
    by_cases hk : k' = Fin.last r
    · simp only [hk, if_true]
      rw [e0]
      ring
    · simp only [if_neg hk, mul_zero, add_zero]
  · show m.rhs P tH cin u 0 j.succ w.succ = _
    have e0 : ∀ w : Fin z, setInlet u cin 0 j.succ w.succ = u 0 j.succ w.succ := fun w => by simp [setInlet]
    have h0 := (axial_moves h.axial (fun _ => 1)).2 (fun _ => rfl) w.succ (Fin.succ_ne_zero w)
    simp only [mul_one] at h0
    rw [Fin.sum_univ_succ] at h0
    have hadv : ∑ w', P.Az w.succ w' * setInlet u cin 0 j.succ w' = ∑ w' : Fin z, P.Az w.succ w'.succ * (u 0 j.succ w'.succ - cin j.succ) := by
      rw [Fin.sum_univ_succ]
      simp only [e0, mul_sub, Finset.sum_sub_distrib, ← Finset.sum_mul]
      have e1 : setInlet u cin 0 j.succ 0 = cin j.succ := by simp [setInlet]
      rw [e1]
      linear_combination cin j.succ * h0
    rw [rhs_eq, assemble_liq, if_neg (Fin.succ_ne_zero w), liqRate, hadv, hflux, e0]
    simp only [mbedRhs, redPt, ptRhs, ptLin, mpore, redExc, mflow, Prod.snd_sub, Pi.sub_apply]
    field_simp
    ring

/-- The rate of the presaturant makes up for the others. -/
theorem red_first (h : Spec.IonColumn m P jac tH) {u : ColState r p z} (hu : Spec.Totals (∑ i, cin i) Q u) (a w) :
    m.rhs P tH cin u a 0 w = -∑ j : Fin p, m.rhs P tH cin u a j.succ w := by
  have := plain_sums (m := m) (P := P) (tH := tH) (axial_moves h.axial) hu a w
  rw [Fin.sum_univ_succ] at this
  linarith

/-- Runs of the excesses are runs of the column. -/
theorem red_solves (h : Spec.IonColumn m P jac tH) (hq : ∑ i, q i = Q) (e : Fin (p + 1) → ℝ) {x : ℝ → MBed (MBead p r) p z} {T : ℝ}
    (hx : ∀ t ∈ Icc 0 T, HasDerivWithinAt x (mbedRhs (redPt m P tH cin q) (P.v * tH / (P.L * P.EBED)) P.Az (x t)) (Icc 0 T) t) :
    Spec.Solves colComp (fun _ u => m.rhs P tH cin u) 0 T (fun t => ionState cin q e (mext (x t))) := by
  rintro t ht ⟨a, i, w⟩
  have h1 := hx t ht
  have hu := ionState_totals (cin := cin) hq e (mext_sum (x t))
  rw [show x t = redExc cin q (ionState cin q e (mext (x t))) from (redExc_state _ _).symm, ← red_rates h hq hu] at h1
  set u := ionState cin q e (mext (x t)) with hut
  have p1 : HasDerivWithinAt (fun s => (x s).1) (redRates m P tH cin u).1 (Icc 0 T) t :=
    (ContinuousLinearMap.fst ℝ (MBead p r) (Fin z → MPt (MBead p r) p)).hasFDerivAt.comp_hasDerivWithinAt t h1
  have p2 : HasDerivWithinAt (fun s => (x s).2) (redRates m P tH cin u).2 (Icc 0 T) t :=
    (ContinuousLinearMap.snd ℝ (MBead p r) (Fin z → MPt (MBead p r) p)).hasFDerivAt.comp_hasDerivWithinAt t h1
  have hrow : ∀ (g : ℝ → Fin p → ℝ) (a : Fin (r + 2)) (w : Fin (z + 1)) (c : ℝ),
      (∀ j, HasDerivWithinAt (fun s => g s j) (m.rhs P tH cin u a j.succ w) (Icc 0 T) t) →
      HasDerivWithinAt (fun s => refill (g s) i + c) (m.rhs P tH cin u a i w) (Icc 0 T) t := by
    intro g a w c hg
    refine HasDerivWithinAt.add_const c ?_
    refine Fin.cases ?_ (fun j => ?_) i
    · rw [red_first h hu]
      simp only [refill_zero]
      exact (HasDerivWithinAt.fun_sum fun j _ => hg j).fun_neg
    · exact hg j
  show HasDerivWithinAt (fun s => ionState cin q e (mext (x s)) a i w) (m.rhs P tH cin u a i w) (Icc 0 T) t
  refine Fin.cases ?_ (fun k => ?_) a
  · refine Fin.cases ?_ (fun w => ?_) w
    · rw [rhs_eq, assemble_liq, if_pos rfl]
      refine (hasDerivWithinAt_const t (Icc 0 T) (e i)).congr (fun s _ => ?_) ?_ <;> simp [ionState]
    · have p3 : HasDerivWithinAt (fun s => ((x s).2 w).2) ((redRates m P tH cin u).2 w).2 (Icc 0 T) t :=
        (ContinuousLinearMap.snd ℝ (MBead p r) (Fin p → ℝ)).hasFDerivAt.comp_hasDerivWithinAt t (hasDerivWithinAt_pi.1 p2 w)
      exact hrow (fun s => ((x s).2 w).2) 0 w.succ (cin i) fun j => hasDerivWithinAt_pi.1 p3 j
  · refine Fin.cases ?_ (fun w => ?_) w
    · exact hrow (fun s j => (x s).1 j k) k.succ 0 (q i) fun j => hasDerivWithinAt_pi.1 (hasDerivWithinAt_pi.1 p1 j) k
    · have p3 : HasDerivWithinAt (fun s => ((x s).2 w).1) ((redRates m P tH cin u).2 w).1 (Icc 0 T) t :=
        (ContinuousLinearMap.fst ℝ (MBead p r) (Fin p → ℝ)).hasFDerivAt.comp_hasDerivWithinAt t (hasDerivWithinAt_pi.1 p2 w)
      exact hrow (fun s j => ((x s).2 w).1 j k) k.succ w.succ (q i) fun j => hasDerivWithinAt_pi.1 (hasDerivWithinAt_pi.1 p3 j) k

theorem redPt_zero (h : Spec.IonColumn m P jac tH) (hc : ∀ i, 0 < cin i) (hq : Spec.SpentLoadings m P cin Q q) :
    redPt m P tH cin q 0 = 0 := ptRhs_zero (redIso_zero h hc hq)

/-- Totals persist. -/
theorem red_totals (h : Spec.IonColumn m P jac tH) (hc : ∀ i, 0 < cin i) (hq : Spec.SpentLoadings m P cin Q q) {T : ℝ}
    {y : ℝ → ColState r p z} (hy : Spec.Solves colComp (fun _ u => m.rhs P tH cin u) 0 T y) (h0 : Spec.Totals (∑ i, cin i) Q (y 0)) :
    ∀ t ∈ Icc 0 T, Spec.Totals (∑ i, cin i) Q (y t) := by
  intro t ht
  have hrest := red_solves (cin := cin) h hq.total cin (x := fun _ => 0) (T := T) (fun t _ => by
    have : mbedRhs (redPt m P tH cin q) (P.v * tH / (P.L * P.EBED)) P.Az (0 : MBed (MBead p r) p z) = 0 := by
      have hz := redPt_zero (tH := tH) h hc hq
      have hz' : redPt m P tH cin q ((0 : MBead p r), 0) = 0 := hz
      refine Prod.ext ?_ (funext fun w => ?_)
      · show (redPt m P tH cin q ((0 : MBead p r), 0)).1 = 0
        rw [hz']
        rfl
      · show redPt m P tH cin q 0 - ((0 : MBead p r), mflow _ P.Az 0 w) = 0
        rw [hz]
        refine Prod.ext ?_ (funext fun i => ?_)
        · simp
        · simp [mflow]
    rw [this]
    exact hasDerivWithinAt_const _ _ _)
  have hx := ionState_totals (cin := cin) hq.total cin (mext_sum (0 : MBed (MBead p r) p z))
  refine ⟨fun w hw => ?_, fun k w => ?_⟩
  · have := totals_follow m P tH (cin := fun _ => cin) (cin' := fun _ => cin) (fun s hs => rfl) hrest hy
      (fun w hw => by rw [h0.water w hw, hx.water w hw]) t ht w hw
    rw [this, hx.water w hw]
  · rw [c28_solutions m P tH (fun _ => cin) hy ht, h0.beads]

theorem red_energy (h : Spec.MildColumn m P jac tH cin q) (hc : ∀ i, 0 < cin i) (hq : Spec.SpentLoadings m P cin Q q) :
    ∃ (L : MPt (MBead p r) p →L[ℝ] MPt (MBead p r) p) (e : MPt (MBead p r) p →L[ℝ] MPt (MBead p r) p →L[ℝ] ℝ)
      (H : MBead p r →L[ℝ] (Fin p → ℝ)) (ℓ : (Fin p → ℝ) →L[ℝ] (Fin (p + 1) → ℝ)) (lam : Fin (p + 1) → ℝ),
      PtEnergy L e H ℓ lam ∧ HasFDerivAt (redPt m P tH cin q) L 0 := by
  have hE0 := h.bed.1
  have hE1 : 0 < 1 - P.EBED := sub_pos.2 h.bed.2
  exact ⟨_, _, _, _, _, mx_energy (μ := 3 * (1 - P.EBED) / P.EBED) h.grid (red_slope h hc hq) (by positivity),
    ptRhs_deriv ((redIso_smooth h.toIonColumn hc hq).differentiableAt (by norm_num)).hasFDerivAt⟩

theorem red_deriv (h : Spec.IonColumn m P jac tH) (hc : ∀ i, 0 < cin i) (hq : Spec.SpentLoadings m P cin Q q) {T : ℝ}
    {y : ℝ → ColState r p z} (hy : Spec.Solves colComp (fun _ u => m.rhs P tH cin u) 0 T y) (h0 : Spec.Totals (∑ i, cin i) Q (y 0)) :
    ∀ t ∈ Icc 0 T, HasDerivWithinAt (fun s => redExc cin q (y s)) (mbedRhs (redPt m P tH cin q) (P.v * tH / (P.L * P.EBED)) P.Az
      (redExc cin q (y t))) (Icc 0 T) t := by
  intro t ht
  rw [← red_rates h hq.total (red_totals h hc hq hy h0 t ht)]
  refine HasDerivWithinAt.prodMk (hasDerivWithinAt_pi.2 fun i => hasDerivWithinAt_pi.2 fun k => ?_) (hasDerivWithinAt_pi.2 fun w =>
    HasDerivWithinAt.prodMk (hasDerivWithinAt_pi.2 fun i => hasDerivWithinAt_pi.2 fun k => ?_) (hasDerivWithinAt_pi.2 fun i => ?_))
  · exact (hy t ht (k.succ, i.succ, 0)).sub_const _
  · exact (hy t ht (k.succ, i.succ, w.succ)).sub_const _
  · exact (hy t ht (0, i.succ, w.succ)).sub_const _

theorem red_flow (h : Spec.IonColumn m P jac tH) : 0 < P.v * tH / (P.L * P.EBED) :=
  div_pos (mul_pos h.flow.1 h.time) (mul_pos h.flow.2 h.bed.1)

/-- C265. Every run that starts near the exhausted column, with the totals that `solve` starts from, tends to it exponentially: any number of
ions of mild mobilities, any selectivities, any numbers of radial and axial nodes. -/
theorem c265_near (h : Spec.MildColumn m P jac tH cin q) (hc : ∀ i, 0 < cin i) (hq : Spec.SpentLoadings m P cin Q q) :
    ∃ δ C ω : ℝ, 0 < δ ∧ 0 < C ∧ 0 < ω ∧ ∀ (ε T : ℝ) (y : ℝ → ColState r p z),
    Spec.Solves colComp (fun _ u => m.rhs P tH cin u) 0 T y → Spec.Totals (∑ i, cin i) Q (y 0) → Spec.IonWithin cin q ε (y 0) → ε ≤ δ →
    ∀ t ∈ Icc 0 T, Spec.IonWithin cin q (C * Real.exp (-(ω * t)) * ε) (y t) := by
  obtain ⟨L, e, H, ℓ, lam, he, hL⟩ := red_energy h hc hq
  obtain ⟨G, hG⟩ := axial_form h.axial
  obtain ⟨δ, C, ω, hδ, hC, hω, hx⟩ := mbed_local he (axial_moves h.axial) hG (red_flow h.toIonColumn) hL (redPt_zero h.toIonColumn hc hq)
  refine ⟨δ, (p + 1) * C, ω, hδ, by positivity, hω, fun ε T y hy hT h0 hε t ht => ?_⟩
  have hε0 : 0 ≤ ε := (abs_nonneg _).trans (h0.2 0 0 0)
  have hn := redExc_norm hε0 h0
  have := hx (fun s => redExc cin q (y s)) T (red_deriv h.toIonColumn hc hq hy hT) (hn.trans hε) t ht
  have h1 := redExc_within hq.total (red_totals h.toIonColumn hc hq hy hT t ht) (ε := C * Real.exp (-(ω * t)) * ε) (by positivity)
    (this.trans (mul_le_mul_of_nonneg_left hn (by positivity)))
  rwa [show (p + 1 : ℝ) * (C * Real.exp (-(ω * t)) * ε) = (p + 1) * C * Real.exp (-(ω * t)) * ε by ring] at h1

/-- C265. From every such state near the exhausted column there is a run for all time, and exactly one. -/
theorem c265_run (h : Spec.MildColumn m P jac tH cin q) (hc : ∀ i, 0 < cin i) (hq : Spec.SpentLoadings m P cin Q q) :
    ∃ δ : ℝ, 0 < δ ∧ ∀ u : ColState r p z, Spec.Totals (∑ i, cin i) Q u → Spec.IonWithin cin q δ u →
    ∃ y : ℝ → ColState r p z, y 0 = u ∧ (∀ T, Spec.Solves colComp (fun _ u => m.rhs P tH cin u) 0 T y) ∧
      ∀ T x, Spec.Solves colComp (fun _ u => m.rhs P tH cin u) 0 T x → x 0 = u → ∀ t ∈ Icc 0 T, x t = y t := by
  obtain ⟨L, e, H, ℓ, lam, he, hL⟩ := red_energy h hc hq
  obtain ⟨G, hG⟩ := axial_form h.axial
  obtain ⟨δ, hδ, hx⟩ := mbed_run he (axial_moves h.axial) hG (red_flow h.toIonColumn) (ptRhs_smooth (redIso_smooth h.toIonColumn hc hq)) hL
    (redPt_zero h.toIonColumn hc hq)
  refine ⟨δ, hδ, fun u hT hu => ?_⟩
  obtain ⟨x, hx0, hxd, hxu⟩ := hx (redExc cin q u) (redExc_norm hδ.le hu)
  refine ⟨fun t => ionState cin q (fun i => u 0 i 0) (mext (x t)), ?_, fun T => red_solves h.toIonColumn hq.total _ (hxd T),
    fun T x' hx' h0 t ht => ?_⟩
  · beta_reduce
    rw [hx0, mext_exc hq.total hT]
    exact ionState_exc fun _ => rfl
  · have hT' : Spec.Totals (∑ i, cin i) Q (x' 0) := by rw [h0]; exact hT
    have h1 := hxu T (fun s => redExc cin q (x' s)) (by beta_reduce; rw [h0]) (red_deriv h.toIonColumn hc hq hx' hT') t ht
    have h2 : ∀ i, x' t 0 i 0 = u 0 i 0 := by
      intro i
      rw [← h0]
      refine constant_of_derivWithin_zero (f := fun s => x' s 0 i 0) (a := 0) (b := T)
        (fun s hs => (hx' s hs (0, i, 0)).differentiableWithinAt) (fun s hs => ?_) t ht
      have h3 := hx' s ⟨hs.1, hs.2.le⟩ (0, i, 0)
      have h4 : colComp (0, i, 0) (m.rhs P tH cin (x' s)) = 0 := by
        show m.rhs P tH cin (x' s) 0 i 0 = 0
        rw [rhs_eq, assemble_liq, if_pos rfl]
      beta_reduce at h3
      rw [h4] at h3
      exact h3.derivWithin (uniqueDiffOn_Icc (hs.1.trans_lt hs.2) s ⟨hs.1, hs.2.le⟩)
    beta_reduce
    rw [← h1, mext_exc hq.total (red_totals h.toIonColumn hc hq hx' hT' t ht)]
    exact (ionState_exc h2).symm

/-- C265. Every run for all time with these totals, whatever its start, either keeps away from the exhausted column for ever or tends
to it. -/
theorem c265_either (h : Spec.MildColumn m P jac tH cin q) (hc : ∀ i, 0 < cin i) (hq : Spec.SpentLoadings m P cin Q q) :
    ∃ δ : ℝ, 0 < δ ∧ ∀ y : ℝ → ColState r p z, (∀ T, Spec.Solves colComp (fun _ u => m.rhs P tH cin u) 0 T y) →
    Spec.Totals (∑ i, cin i) Q (y 0) →
    (∀ t, 0 ≤ t → ¬ Spec.IonWithin cin q δ (y t)) ∨
    ((∀ i w, w ≠ 0 → Tendsto (fun t => y t 0 i w) atTop (nhds (cin i))) ∧
      ∀ (k : Fin (r + 1)) i w, Tendsto (fun t => y t k.succ i w) atTop (nhds (q i))) := by
  obtain ⟨δ, C, ω, hδ, hC, hω, hx⟩ := c265_near h hc hq
  refine ⟨δ, hδ, fun y hy hT => ?_⟩
  by_cases hs : ∃ s, 0 ≤ s ∧ Spec.IonWithin cin q δ (y s)
  · obtain ⟨s, hs0, hs⟩ := hs
    right
    have hst := red_totals h.toIonColumn hc hq (hy s) hT s ⟨hs0, le_rfl⟩
    have hW : ∀ t, s ≤ t → Spec.IonWithin cin q (C * Real.exp (-(ω * (t - s))) * δ) (y t) := by
      intro t ht
      have := hx δ (t - s) (fun τ => y (s + τ)) (col_shift hs0 (hy _)) (by rw [add_zero]; exact hst) (by rw [add_zero]; exact hs) le_rfl
        (t - s) ⟨by linarith, le_rfl⟩
      rwa [add_sub_cancel] at this
    have hlim : Tendsto (fun t => C * Real.exp (-(ω * (t - s))) * δ) atTop (nhds 0) := by
      have h1 : Tendsto (fun t : ℝ => ω * (t - s)) atTop atTop := (tendsto_atTop_add_const_right _ (-s) tendsto_id).const_mul_atTop hω
      have h3 := ((Real.tendsto_exp_neg_atTop_nhds_zero.comp h1).const_mul C).mul_const δ
      simpa using h3
    have key : ∀ (f : ℝ → ℝ) (b : ℝ), (∀ t, s ≤ t → |f t - b| ≤ C * Real.exp (-(ω * (t - s))) * δ) → Tendsto f atTop (nhds b) := by
      intro f b hf
      rw [tendsto_iff_dist_tendsto_zero]
      refine squeeze_zero' (Eventually.of_forall fun t => dist_nonneg) ?_ hlim
      filter_upwards [eventually_ge_atTop s] with t h0
      rw [Real.dist_eq]
      exact hf t h0
    exact ⟨fun i w hw => key _ _ fun t ht => (hW t ht).1 i w hw, fun k i w => key _ _ fun t ht => (hW t ht).2 k i w⟩
  · left
    push Not at hs
    exact hs

/-- C265. Columns with ions of like mobility are columns with mild mobilities. -/
theorem c265_alike {D E k : ℝ} (h : Spec.AlikeColumn m P jac tH D E k) (hc : ∀ i, 0 < cin i) (hq : Spec.SpentLoadings m P cin Q q) :
    Spec.MildColumn m P jac tH cin q := by
  have hvc : ∀ a, 0 < P.val a * cin a := fun a => mul_pos (mild_val h.toIonColumn a) (hc a)
  have hvq : ∀ a, 0 < P.val a * q a := fun a => mul_pos (mild_val h.toIonColumn a) (hq.pos a)
  refine ⟨h.toIonColumn, c265_equal hvc h.rates.2 fun i => (h.alike _ (Fin.succ_ne_zero i)).2,
    c265_equal hvq h.rates.1 fun i => (h.alike _ (Fin.succ_ne_zero i)).1, fun hm => ?_⟩
  have hp := h.pore hm
  rcases hp.1.eq_or_lt with e | e
  · left
    intro i
    rw [hp.2 _ (Fin.succ_ne_zero i), (h.alike _ (Fin.succ_ne_zero i)).1, e]
  · right
    refine c265_equal hvc (sub_pos.2 e) fun i => ?_
    rw [hp.2 _ (Fin.succ_ne_zero i), (h.alike _ (Fin.succ_ne_zero i)).1]

/-- C265. Any positive mobilities are mild if there is little of the other ions beside the presaturant. -/
theorem c265_trace {b : Fin p → ℝ} (hb : ∀ i, 0 < b i) : ∃ σ : ℝ, 0 < σ ∧ ∀ w : Fin (p + 1) → ℝ, (∀ a, 0 < w a) →
    (∀ i : Fin p, w i.succ ≤ σ * w 0) → Spec.Mild w b := by
  set S := ∑ i, (1 - b i) ^ 2 / b i with hS
  have hS0 : 0 ≤ S := Finset.sum_nonneg fun i _ => by have := hb i; positivity
  refine ⟨1 / (S + 1), by positivity, fun w hw hle => ⟨hb, 1, one_pos, ?_⟩⟩
  have h1 : ∑ i, w i.succ * ((1 - b i) ^ 2 / b i) ≤ 1 / (S + 1) * w 0 * S := by
    rw [hS, Finset.mul_sum]
    exact Finset.sum_le_sum fun i _ => mul_le_mul_of_nonneg_right (hle i) (by have := hb i; positivity)
  have h2 : 1 / (S + 1) * w 0 * S < w 0 := by
    rw [show 1 / (S + 1) * w 0 * S = w 0 * S / (S + 1) by ring, div_lt_iff₀ (by positivity)]
    nlinarith [hw 0]
  linarith [hw 0]

end

/-- C265. One other ion of any mobility is mild. -/
theorem c265_two {w : Fin 2 → ℝ} (hw : ∀ a, 0 < w a) {b : Fin 1 → ℝ} (hb : 0 < b 0) : Spec.Mild w b :=
  c265_equal hw hb fun i => by rw [Subsingleton.elim i 0]

/-- The hypotheses meet: sulfate and nitrate of mobilities that differ by a factor 16, and a column that starts slightly off exhaustion. -/
example (m : ColModel) (r z : ℕ) (A : Fin (z + 1) → Fin (z + 1) → ℝ) (hA : Spec.AxialGrid z A) : ∃ (P : ColParams r 2 z) (q : Fin 3 → ℝ)
    (y : ℝ → ColState r 2 z), P.K 1 = 3 ∧ P.val 1 = 2 ∧ P.K 2 = 2 ∧ P.val 2 = 1 ∧ P.Ds 2 = 16 * P.Ds 1 ∧ P.kL 1 = 9 * P.kL 2 ∧ (∀ i, 0 < q i) ∧
    (∀ T, Spec.Solves colComp (fun _ u => m.rhs P 1 ![8, 1, 2] u) 0 T y) ∧ y 0 1 1 0 ≠ q 1 ∧
    (∀ i, Tendsto (fun t => y t 0 i (Fin.last z)) atTop (nhds (![8, 1, 2] i))) ∧ ∀ i, Tendsto (fun t => y t 1 i 0) atTop (nhds (q i)) := by
  obtain ⟨jac, B, W, g⟩ := beadGrid_exists r
  have hlast : Fin.last z ≠ 0 := fun e => by have := congrArg Fin.val e; have := axial_pos hA; simp at *; omega
  let P : ColParams r 2 z := ⟨1 / 2, 1, 1, 1, 5, 1 / 2, ![1, 9, 1], ![1, 1, 16], ![1, 3, 18], ![1, 3, 2], ![1, 2, 1], A, B, W⟩
  have hP : Spec.IonColumn m P jac 1 := ⟨g, hA, by show (0 : ℝ) < 1 / 2 ∧ (1 / 2 : ℝ) < 1; norm_num, ⟨one_pos, one_pos⟩, one_pos, one_pos,
    fun _ => ⟨by show (0 : ℝ) ≤ 1 / 2; norm_num, by show (1 / 2 : ℝ) < 1; norm_num⟩, ⟨rfl, fun i => by fin_cases i <;> simp [P]⟩,
    ⟨rfl, fun i => by fin_cases i <;> simp [P]⟩⟩
  have hc : ∀ i, 0 < (![8, 1, 2] : Fin 3 → ℝ) i := fun i => by fin_cases i <;> simp
  set d := colDiv m P with hd
  have hd0 : 0 < d := colDiv_pos hP
  let q : Fin 3 → ℝ := ![d * 8, d * 3, d * 4]
  have hq : Spec.SpentLoadings m P ![8, 1, 2] (d * 15) q := by
    refine ⟨fun i => ?_, ?_, fun i => ?_⟩
    · fin_cases i <;> simp [q, hd0]
    · rw [Fin.sum_univ_three]
      simp [q]
      ring
    · beta_reduce
      rw [load_colDiv, load_colDiv, ← hd]
      fin_cases i
      · simp [q, P]
        ring
      · simp [q, P]
        field_simp
      · simp [q, P]
        field_simp
        norm_num
  have hvc : ∀ a, 0 < P.val a * (![8, 1, 2] : Fin 3 → ℝ) a := fun a => mul_pos (mild_val hP a) (hc a)
  have hvq : ∀ a, 0 < P.val a * q a := fun a => mul_pos (mild_val hP a) (hq.pos a)
  have hM : Spec.MildColumn m P jac 1 ![8, 1, 2] q := by
    refine ⟨hP, c265_spread hvc (l := 1) (ρ := 4) one_pos (by norm_num) (fun i => ?_) ?_,
      c265_spread hvq (l := 1) (ρ := 4) one_pos (by norm_num) (fun i => ?_) ?_,
      fun _ => Or.inr (c265_spread hvc (l := 1) (ρ := 4) one_pos (by norm_num) (fun i => ?_) ?_)⟩
    · fin_cases i <;> simp [P] <;> norm_num
    · rw [Fin.sum_univ_two]
      simp [P]
      norm_num
    · fin_cases i <;> simp [P] <;> norm_num
    · rw [Fin.sum_univ_two]
      simp [P, q]
      nlinarith
    · fin_cases i <;> simp [P] <;> norm_num
    · rw [Fin.sum_univ_two]
      simp [P]
      norm_num
  obtain ⟨δ1, hδ1, hrun⟩ := c265_run hM hc hq
  obtain ⟨δ2, hδ2, heither⟩ := c265_either hM hc hq
  set δ := min δ1 δ2 with hδ
  have hδ0 : 0 < δ := lt_min hδ1 hδ2
  let x : MBed (MBead 3 r) 3 z := (fun i _ => ![-δ, δ, 0] i, 0)
  have hx : ‖x‖ ≤ δ := by
    rw [norm_prod_le_iff]
    refine ⟨(pi_norm_le_iff_of_nonneg hδ0.le).2 fun i => (pi_norm_le_iff_of_nonneg hδ0.le).2 fun _ => ?_, ?_⟩
    · fin_cases i <;> simp [x, abs_of_pos hδ0, hδ0.le]
    · show ‖(0 : Fin z → MPt (MBead 3 r) 3)‖ ≤ δ; rw [norm_zero]; exact hδ0.le
  have hxs : msum x = 0 := by
    refine Prod.ext (funext fun _ => funext fun k => ?_) (funext fun w => Prod.ext (funext fun _ => funext fun k => ?_) (funext fun _ => ?_))
    · show ∑ i, (![-δ, δ, 0] : Fin 3 → ℝ) i = 0
      rw [Fin.sum_univ_three]
      simp
    · simp [msum, x]
    · simp [msum, x]
  set u := ionState ![8, 1, 2] q ![8, 1, 2] x with hu
  have hT : Spec.Totals (∑ i, (![8, 1, 2] : Fin 3 → ℝ) i) (d * 15) u := ionState_totals hq.total _ hxs
  have hw : ∀ e, δ ≤ e → Spec.IonWithin ![8, 1, 2] q e u := fun e he =>
    (ionExc_norm (hδ0.le.trans he)).1 (by rw [ionExc_state]; exact hx.trans he)
  obtain ⟨y, hy0, hy, -⟩ := hrun u hT (hw _ (min_le_left _ _))
  rcases heither y hy (by rw [hy0]; exact hT) with h | h
  · exact absurd (by rw [hy0]; exact hw _ (min_le_right _ _)) (h 0 le_rfl)
  · refine ⟨P, q, y, rfl, rfl, rfl, rfl, by simp [P], by simp [P], hq.pos, hy, ?_, fun i => h.1 i _ hlast, fun i => h.2 0 i 0⟩
    rw [hy0]
    have : u 1 1 0 = δ + q 1 := by
      rw [hu, show (1 : Fin (r + 2)) = (0 : Fin (r + 1)).succ from rfl]
      rfl
    rw [this]
    intro e
    linarith

end WTM
