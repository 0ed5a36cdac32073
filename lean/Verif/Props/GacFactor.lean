import Verif.Model.GacFactor
import Verif.Props.GacColumn
import Mathlib.Topology.Algebra.Field
import Mathlib.Topology.Order.Basic

/-! Property C285: which diffusivities a carbon column can be run with. -/
set_option autoImplicit false
namespace WTM
open BigOperators Topology Filter

section
variable {n r z : ℕ}

/-- Specification: a column and compounds with sensible properties and positive coefficients. -/
structure Spec.Runnable (G : GacCol) (cs : Fin n → GacComp) : Prop where
  ok : ∀ i, (cs i).Ok
  ebed : 0 < G.ebed ∧ G.ebed < 1
  epor : 0 < G.epor
  rhop : 0 < G.rhop
  tau : 0 < G.tau
  rad : 0 < G.rad
  kf : ∀ i, 0 < kfUsed G (cs i)
  dp : ∀ i, 0 < dpUsed G (cs i)
  ds : ∀ i, 0 < dsUsed G (cs i)

/-- C285, full statement: every such column has rates, in every state. -/
def C285 : Prop :=
  ∀ (n r z : ℕ) (G : GacCol) (cs : Fin n → GacComp) (tort : ℝ) (cinfl foul : Fin n → ℝ) (wr : Fin (r + 2) → ℝ) (br : Fin (r + 2) → Fin (r + 2) → ℝ)
    (az : Fin (z + 1) → Fin (z + 1) → ℝ) (y : GacState n (r + 1) z), Spec.Runnable G cs → 1 ≤ tort →
    (gacRates (gacDim G cs wr br az) cinfl foul (fun i => facEntry tort (dRatio G (cs i))) y).isSome

theorem facEntry_isSome (tort d : ℝ) : (facEntry tort d).isSome ↔ d ≠ 1 := by
  unfold facEntry
  split
  · rename_i h
    simp only [Option.isSome_none, Bool.false_eq_true, false_iff, not_not]
    linarith
  · rename_i h
    simp only [Option.isSome_some, true_iff]
    exact fun e => h (by rw [e, sub_self])

theorem facEntry_get {tort d x : ℝ} (h : facEntry tort d = some x) : x = facAOf tort d := by
  unfold facEntry at h
  split at h
  · cases h
  · exact (Option.some.inj h).symm

/-- C285, what holds: exactly the columns in which no compound has the same diffusivity in pores and on surfaces have rates, and these are the rates of the model.
Missing: those with equal ones. -/
theorem c285_partial {G : GacCol} {cs : Fin n → GacComp} (hdp : ∀ i, 0 < dpUsed G (cs i)) (tort : ℝ) (cinfl foul : Fin n → ℝ) (wr : Fin (r + 2) → ℝ)
    (br : Fin (r + 2) → Fin (r + 2) → ℝ) (az : Fin (z + 1) → Fin (z + 1) → ℝ) (y : GacState n (r + 1) z) :
    ((∀ i, dsUsed G (cs i) ≠ dpUsed G (cs i)) →
      gacRates (gacDim G cs wr br az) cinfl foul (fun i => facEntry tort (dRatio G (cs i))) y =
        some (gacRhs (gacDim G cs wr br az) cinfl foul (fun i => facAOf tort (dRatio G (cs i))) y)) ∧
    ((∃ i, dsUsed G (cs i) = dpUsed G (cs i)) →
      gacRates (gacDim G cs wr br az) cinfl foul (fun i => facEntry tort (dRatio G (cs i))) y = none) := by
  have hd : ∀ i, dRatio G (cs i) = 1 ↔ dsUsed G (cs i) = dpUsed G (cs i) := fun i => div_eq_one_iff_eq (hdp i).ne'
  constructor
  · intro h
    have hs : ∀ i, (facEntry tort (dRatio G (cs i))).isSome := fun i => (facEntry_isSome _ _).2 fun e => h i ((hd i).1 e)
    unfold gacRates
    rw [dif_pos hs]
    congr 2
    funext i
    exact facEntry_get (Option.some_get (hs i)).symm
  · rintro ⟨i, hi⟩
    unfold gacRates
    rw [dif_neg]
    intro hs
    exact (facEntry_isSome _ _).1 (hs i) ((hd i).2 hi)

/-- C285. By correlation the ratio of the diffusivities in organic-free water is `psdfr` times that of what pores and surfaces hold; in fouled water it is divided
by 1e10. -/
theorem c285_correlated {G : GacCol} {c : GacComp} (hc : c.Ok) (he : 0 < G.ebed ∧ G.ebed < 1) (hr : 0 < G.rhop) (ht : tortu0 G ≠ 0)
    (hl : difl G.vw c.molVol ≠ 0) (hp : c.mtDp ≤ 0) (hs : c.mtDs ≤ 0) :
    dRatio G c = G.psdfr * (dgpOf G / dgsOf G c) / (if G.organicFree then 1 else 1e10) := by
  have h1 := qe_pos hc
  have h2 := cb0_pos hc
  have h3 : (1 - G.ebed) ≠ 0 := by linarith [he.2]
  have h4 := he.1.ne'
  unfold dRatio dsUsed dpUsed dsCorr dgpOf dgsOf
  unfold qeOf at h1 ⊢
  rw [if_neg (not_lt.2 hp), if_neg (not_lt.2 hs)]
  have e : G.epor * difl G.vw c.molVol * cb0Of c.c0 * G.psdfr / (tortu0 G * 1e3 * G.rhop * molarK c.K c.mw c.xn * cb0Of c.c0 ^ c.xn) =
      G.epor * difl G.vw c.molVol * cb0Of c.c0 * G.psdfr / (tortu0 G * 1e3 * G.rhop * (molarK c.K c.mw c.xn * cb0Of c.c0 ^ c.xn)) := by
    rw [mul_assoc (tortu0 G * 1e3 * G.rhop)]
  dsimp only
  rw [e]
  generalize molarK c.K c.mw c.xn * cb0Of c.c0 ^ c.xn = q at h1
  generalize cb0Of c.c0 = b at h2
  generalize difl G.vw c.molVol = l at hl
  generalize tortu0 G = t at ht
  have := hr.ne'
  have := h1.ne'
  have := h2.ne'
  split
  · field_simp
    norm_num
  · field_simp
    norm_num

/-- C285. What pore diffusion contributes, where it has a value: nothing is singular at equal diffusivities. -/
theorem c285_coefficient {G : GacCol} {cs : Fin n → GacComp} {i : Fin n} (hd : dRatio G (cs i) ≠ 1) (tort : ℝ) :
    bedpOf G cs i * facAOf tort (dRatio G (cs i)) = edpOf G (cs i) * (1 / tort - dRatio G (cs i)) * (dgtOf G cs / dgOf G (cs i)) := by
  have h : 1 - dRatio G (cs i) ≠ 0 := sub_ne_zero.2 (Ne.symm hd)
  unfold bedpOf facAOf
  field_simp

/-- C285. As the supplied surface diffusivity tends to the pore diffusivity, the coefficient of pore diffusion tends to a number. -/
theorem c285_removable {G : GacCol} {c : GacComp} (hG : G.organicFree = true) (hp : 0 < c.mtDp) (tort : ℝ) :
    Tendsto (fun x => bedpOf G (fun _ : Fin 1 => { c with mtDs := x }) 0 * facAOf tort (dRatio G { c with mtDs := x })) (𝓝[≠] c.mtDp)
      (𝓝 (edpOf G c * (1 / tort - 1) * (dgtOf G (fun _ : Fin 1 => c) / dgOf G c))) := by
  have hpu : ∀ x, dpUsed G { c with mtDs := x } = c.mtDp := fun x => if_pos hp
  have hsu : ∀ x, 0 < x → dsUsed G { c with mtDs := x } = x := by
    intro x hx
    unfold dsUsed
    dsimp only
    rw [if_pos hx, if_pos hG]
  have hev : ∀ᶠ x in 𝓝[≠] c.mtDp, edpOf G c * (1 / tort - x / c.mtDp) * (dgtOf G (fun _ : Fin 1 => c) / dgOf G c) =
      bedpOf G (fun _ : Fin 1 => { c with mtDs := x }) 0 * facAOf tort (dRatio G { c with mtDs := x }) := by
    filter_upwards [self_mem_nhdsWithin, mem_nhdsWithin_of_mem_nhds (lt_mem_nhds hp)] with x hx h0
    have hr : dRatio G { c with mtDs := x } = x / c.mtDp := by unfold dRatio; rw [hpu, hsu x h0]
    have hne : dRatio G { c with mtDs := x } ≠ 1 := by
      rw [hr]
      exact fun e => hx ((div_eq_one_iff_eq hp.ne').1 e)
    rw [c285_coefficient (cs := fun _ : Fin 1 => { c with mtDs := x }) (i := 0) hne, hr]
    rfl
  refine Tendsto.congr' hev (tendsto_nhdsWithin_of_tendsto_nhds ?_)
  have : Tendsto (fun x : ℝ => edpOf G c * (1 / tort - x / c.mtDp) * (dgtOf G (fun _ : Fin 1 => c) / dgOf G c)) (𝓝 c.mtDp)
      (𝓝 (edpOf G c * (1 / tort - c.mtDp / c.mtDp) * (dgtOf G (fun _ : Fin 1 => c) / dgOf G c))) :=
    ((tendsto_const_nhds.sub (tendsto_id.div_const _)).const_mul _).mul_const _
  rwa [div_self hp.ne'] at this

end

/-- C285 is false of the code: pore and surface diffusivity of 1e-6 cm2/s entered for one compound in organic-free water. -/
theorem c285_false : ¬ C285 := by
  intro H
  let G : GacCol := ⟨0.64, 0.8, 0.4, 300, 0.05, 5, 1, 0.01, 1, 10, true⟩
  let c : GacComp := ⟨100, 1 / 2, 131, 90, 3, 0.003, 1e-6, 1e-6⟩
  have e1 : dpUsed G c = 1e-6 := if_pos (by norm_num [c])
  have e2 : dsUsed G c = 1e-6 := by
    unfold dsUsed
    dsimp only
    rw [if_pos (show G.organicFree = true from rfl), if_pos (by norm_num [c])]
  have hR : Spec.Runnable G (fun _ : Fin 1 => c) := by
    refine ⟨fun _ => ?_, ?_, ?_, ?_, ?_, ?_, fun _ => ?_, fun _ => by rw [e1]; norm_num, fun _ => by rw [e2]; norm_num⟩ <;>
      norm_num [GacComp.Ok, G, c, kfUsed]
  have h := H 1 0 0 G (fun _ => c) 1 0 0 0 0 0 0 hR le_rfl
  rw [(c285_partial (r := 0) (z := 0) hR.dp 1 0 0 0 0 0 0).2 ⟨0, by rw [e1, e2]⟩] at h
  cases h

/-- A column with slower surface diffusion has rates in every state. -/
example (y : GacState 1 3 2) (wr : Fin 4 → ℝ) (br : Fin 4 → Fin 4 → ℝ) (az : Fin 3 → Fin 3 → ℝ) :
    let G : GacCol := ⟨0.64, 0.8, 0.4, 300, 0.05, 5, 1, 0.01, 1, 10, true⟩
    let c : GacComp := ⟨100, 1 / 2, 131, 90, 3, 0.003, 1e-6, 1e-9⟩
    (gacRates (gacDim G (fun _ : Fin 1 => c) wr br az) 1 1 (fun _ => facEntry 1 (dRatio G c)) y).isSome := by
  intro G c
  have e1 : dpUsed G c = 1e-6 := if_pos (by norm_num [c])
  have e2 : dsUsed G c = 1e-9 := by
    unfold dsUsed
    dsimp only
    rw [if_pos (show G.organicFree = true from rfl), if_pos (by norm_num [c])]
  rw [(c285_partial (cs := fun _ : Fin 1 => c) (fun _ => by rw [e1]; norm_num) 1 1 1 wr br az y).1 fun _ => by rw [e1, e2]; norm_num]
  rfl

end WTM
