import Verif.Lemmas.LocalSettle

/-! A linear system that settles, under a bounded push: it stays within a multiple of the push. -/
set_option autoImplicit false
namespace WTM
open Set Topology Filter

section
variable {E : Type} [NormedAddCommGroup E] [NormedSpace ℝ E] [FiniteDimensional ℝ E]

/-- The bound by variation of constants. -/
theorem pushed_bound {M : E →L[ℝ] E} {C ω β : ℝ} (hC : 0 ≤ C) (hω : 0 < ω)
    (hM : ∀ v t, 0 ≤ t → ‖linFlow M v t‖ ≤ C * Real.exp (-(ω * t)) * ‖v‖) {x b : ℝ → E} {T : ℝ}
    (hx : ∀ t ∈ Icc 0 T, HasDerivWithinAt x (M (x t) + b t) (Icc 0 T) t) (hb : ∀ t ∈ Icc 0 T, ‖b t‖ ≤ β) :
    ∀ t ∈ Icc 0 T, ‖x t‖ ≤ C * Real.exp (-(ω * t)) * ‖x 0‖ + C * β / ω := by
  intro t ht
  have : CompleteSpace E := FiniteDimensional.complete ℝ E
  have hβ : 0 ≤ β := (norm_nonneg _).trans (hb 0 ⟨le_rfl, ht.1.trans ht.2⟩)
  set F : ℝ → E := fun s => NormedSpace.exp ((t - s) • M) (x s) with hF
  have hsub : Icc 0 t ⊆ Icc 0 T := Icc_subset_Icc le_rfl ht.2
  have hd : ∀ s ∈ Icc 0 t, HasDerivWithinAt F (linFlow M (b s) (t - s)) (Icc 0 t) s := by
    intro s hs
    have h1 := ((hasDerivAt_exp_smul_const (𝕂 := ℝ) M (t - s)).scomp s ((hasDerivAt_id s).const_sub t)).hasDerivWithinAt (s := Icc 0 t)
    have h2 := h1.clm_apply ((hx s (hsub hs)).mono hsub)
    refine h2.congr_deriv ?_
    show (-1 : ℝ) • (NormedSpace.exp ((t - s) • M) * M) (x s) + NormedSpace.exp ((t - s) • M) (M (x s) + b s) = linFlow M (b s) (t - s)
    rw [map_add, neg_one_smul]
    show -(NormedSpace.exp ((t - s) • M) (M (x s))) + _ = _
    unfold linFlow
    abel
  have hB : ∀ s, HasDerivAt (fun s => C * Real.exp (-(ω * t)) * ‖x 0‖ + C * β / ω * (Real.exp (-(ω * (t - s))) - Real.exp (-(ω * t))))
      (C * Real.exp (-(ω * (t - s))) * β) s := by
    intro s
    have h1 : HasDerivAt (fun s : ℝ => -(ω * (t - s))) ω s := by
      have := (((hasDerivAt_id s).const_sub t).const_mul ω).fun_neg
      refine this.congr_deriv ?_
      ring
    have h2 := ((h1.exp.sub_const (Real.exp (-(ω * t)))).const_mul (C * β / ω)).const_add (C * Real.exp (-(ω * t)) * ‖x 0‖)
    refine h2.congr_deriv ?_
    field_simp
  have key := image_norm_le_of_norm_deriv_right_le_deriv_boundary (f := F) (a := 0) (b := t) (f' := fun s => linFlow M (b s) (t - s))
    (fun s hs => (hd s hs).continuousWithinAt)
    (fun s hs => (hd s (Ico_subset_Icc_self hs)).mono_of_mem_nhdsWithin (Icc_mem_nhdsGE_of_mem hs)) (by
      beta_reduce
      rw [sub_zero, sub_self, mul_zero, add_zero]
      have := hM (x 0) t ht.1
      simpa [hF, linFlow] using this) hB (fun s hs => by
        refine (hM (b s) (t - s) (sub_nonneg.2 hs.2.le)).trans ?_
        exact mul_le_mul_of_nonneg_left (hb s (hsub (Ico_subset_Icc_self hs))) (mul_nonneg hC (Real.exp_pos _).le)) ⟨ht.1, le_rfl⟩
  have e : F t = x t := by simp [hF]
  rw [e, sub_self, mul_zero, neg_zero, Real.exp_zero] at key
  refine key.trans ?_
  have h3 : 0 ≤ C * β / ω := by positivity
  have h4 := (Real.exp_pos (-(ω * t))).le
  nlinarith

/-- The same, from what is known of the free system. -/
theorem pushed_settle {M : E →L[ℝ] E} {C ω : ℝ} (hC : 0 ≤ C) (hω : 0 < ω)
    (hM : ∀ (x : ℝ → E) (T : ℝ), (∀ t ∈ Icc 0 T, HasDerivWithinAt x (M (x t)) (Icc 0 T) t) →
      ∀ t ∈ Icc 0 T, ‖x t‖ ≤ C * Real.exp (-(ω * t)) * ‖x 0‖) {β : ℝ} {x b : ℝ → E} {T : ℝ}
    (hx : ∀ t ∈ Icc 0 T, HasDerivWithinAt x (M (x t) + b t) (Icc 0 T) t) (hb : ∀ t ∈ Icc 0 T, ‖b t‖ ≤ β) :
    ∀ t ∈ Icc 0 T, ‖x t‖ ≤ C * Real.exp (-(ω * t)) * ‖x 0‖ + C * β / ω := by
  refine pushed_bound hC hω (fun v t ht => ?_) hx hb
  have := hM (linFlow M v) t (fun s _ => (linFlow_deriv M v s).hasDerivWithinAt) t ⟨ht, le_rfl⟩
  rwa [linFlow_zero] at this

end
end WTM
