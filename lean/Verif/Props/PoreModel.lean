import Verif.Props.IexColumn
import Verif.Props.RIex
import Verif.Model.IexBatch

/-! Property C284: what the porosity of the beads means. Without pores, or with one diffusivity for pores and resin, the pore models (psdmix.py,
psdmixbatch.py) are the homogeneous ones (hsdmix.py, hsdmixbatch.py), with other selectivities for divalent ions. -/
set_option autoImplicit false
namespace WTM
open BigOperators

section
variable {r p z : ℕ}

/-- Specification: the selectivities with which a homogeneous bead stands for one of porosity `ε`. With a divalent ion in the table those of the ions are
divided by the solid fraction once for every charge beyond the first; without one they stay. -/
noncomputable def Spec.apparentK (ε : ℝ) (K : Fin (p + 1) → ℝ) (val : Fin (p + 1) → ℕ) : Fin (p + 1) → ℝ :=
  open Classical in if ∃ i, val i = 2 then fun i => K i * (1 - ε) / (1 - ε) ^ val i else K

theorem apparentK_mono {ε : ℝ} {K : Fin (p + 1) → ℝ} {val : Fin (p + 1) → ℕ} (h : ∀ i, val i ≠ 2) : Spec.apparentK ε K val = K := by
  unfold Spec.apparentK
  rw [if_neg]
  rintro ⟨i, hi⟩
  exact h i hi

theorem apparentK_two {ε : ℝ} (hε : ε ≠ 1) {K : Fin (p + 1) → ℝ} {val : Fin (p + 1) → ℕ} (h : ∃ i, val i = 2) (i : Fin (p + 1)) :
    (val i = 1 → Spec.apparentK ε K val i = K i) ∧ (val i = 2 → Spec.apparentK ε K val i = K i / (1 - ε)) := by
  have h0 : 1 - ε ≠ 0 := sub_ne_zero.2 (Ne.symm hε)
  unfold Spec.apparentK
  rw [if_pos h]
  constructor
  · intro hi
    beta_reduce
    rw [hi, pow_one, mul_div_assoc, div_self h0, mul_one]
  · intro hi
    beta_reduce
    rw [hi]
    field_simp

variable {ε : ℝ} {K : Fin (p + 1) → ℝ} {val : Fin (p + 1) → ℕ}

theorem eqAA_apparent (hε : ε ≠ 1) (h : ∃ i, val i = 2) (q : Fin (p + 1) → ℝ) :
    eqAA K val (fun i => q i / (1 - ε)) = eqAA (Spec.apparentK ε K val) val q := by
  have h0 : 1 - ε ≠ 0 := sub_ne_zero.2 (Ne.symm hε)
  unfold eqAA
  rw [div_pow, div_div_eq_mul_div, Finset.sum_mul]
  congr 1
  refine Finset.sum_congr rfl fun i _ => ?_
  by_cases hi : val i = 2
  · rw [if_pos hi, if_pos hi, (apparentK_two hε h i).2 hi, div_div_eq_mul_div]
    field_simp
  · rw [if_neg hi, if_neg hi, zero_mul]

theorem eqBB_apparent (hε : ε ≠ 1) (h : ∃ i, val i = 2) (q : Fin (p + 1) → ℝ) :
    eqBB K val (fun i => q i / (1 - ε)) = eqBB (Spec.apparentK ε K val) val q := by
  have h0 : 1 - ε ≠ 0 := sub_ne_zero.2 (Ne.symm hε)
  unfold eqBB
  rw [div_div_eq_mul_div, Finset.sum_mul]
  congr 2
  refine Finset.sum_congr rfl fun i _ => ?_
  by_cases hi : val i = 1 ∧ i ≠ 0
  · rw [if_pos hi, if_pos hi, (apparentK_two hε h i).1 hi.1]
    field_simp
  · rw [if_neg hi, if_neg hi, zero_mul]

theorem ceqOfRef_apparent (hε : ε ≠ 1) (h : ∃ i, val i = 2) (q : Fin (p + 1) → ℝ) (c : ℝ) :
    ceqOfRef K val (fun i => q i / (1 - ε)) c = ceqOfRef (Spec.apparentK ε K val) val q c := by
  have h0 : 1 - ε ≠ 0 := sub_ne_zero.2 (Ne.symm hε)
  funext i
  unfold ceqOfRef
  split
  · rfl
  · unfold Spec.apparentK
    rw [if_pos h]
    beta_reduce
    rw [div_div_eq_mul_div c, div_pow, mul_pow, div_pow, div_div_eq_mul_div, div_div, div_mul_div_comm, div_mul_div_comm]
    congr 1 <;> ring

theorem ceqMv_porous (hε : ε ≠ 1) (q : Fin (p + 1) → ℝ) (CT : ℝ) : ceqMv K (fun i => q i / (1 - ε)) CT = ceqMv K q CT := by
  have h0 : 1 - ε ≠ 0 := sub_ne_zero.2 (Ne.symm hε)
  funext i
  unfold ceqMv
  have e : ∑ j, alphaMat K i j * (q j / (1 - ε)) = (∑ j, alphaMat K i j * q j) / (1 - ε) := by
    rw [Finset.sum_div]
    exact Finset.sum_congr rfl fun j _ => by ring
  rw [e, div_mul_eq_mul_div, div_div_div_cancel_right₀ h0]

theorem ceq_apparent (hε : ε ≠ 1) (q : Fin (p + 1) → ℝ) (CT : ℝ) :
    ceq K val (fun i => q i / (1 - ε)) CT = ceq (Spec.apparentK ε K val) val q CT := by
  unfold ceq
  split
  · rename_i h
    unfold ceqDv refConc
    rw [ceqOfRef_apparent hε h]
    simp only [eqAA_apparent hε h, eqBB_apparent hε h]
  · rename_i h
    rw [ceqMv_porous hε, apparentK_mono fun i hi => h ⟨i, hi⟩]

theorem ceqBatch_apparent (hε : ε ≠ 1) (q : Fin (p + 1) → ℝ) (CT : ℝ) :
    ceqBatch K val (fun i => q i / (1 - ε)) CT = ceqBatch (Spec.apparentK ε K val) val q CT := by
  unfold ceqBatch
  split
  · rename_i h
    have e : ceqOfRef K val (fun i => q i / (1 - ε)) = ceqOfRef (Spec.apparentK ε K val) val q := funext fun c => ceqOfRef_apparent hε h q c
    unfold refConcBatch
    rw [e]
    simp only [eqAA_apparent hε h, eqBB_apparent hε h]
  · rename_i h
    rw [ceqMv_porous hε, apparentK_mono fun i hi => h ⟨i, hi⟩]

theorem apparentK_zero : Spec.apparentK 0 K val = K := by
  unfold Spec.apparentK
  split
  · funext i
    simp
  · rfl

/-- C284. A column of beads whose pores and resin have one diffusivity for each ion is a column of homogeneous beads with the apparent selectivities, whatever
the porosity, in every state and for every influent. -/
theorem c284_column (P : ColParams r p z) (hε : P.EPOR ≠ 1) (hD : P.Dp = P.Ds) (tH : ℝ) (cin : Fin (p + 1) → ℝ) (u : ColState r p z) :
    psdmixRhs P tH cin u = hsdmixRhs { P with K := Spec.apparentK P.EPOR P.K P.val } tH cin u := by
  have hb : ∀ u : ColState r p z, psdmBead P tH u = hsdmBead P tH u := by
    intro u
    unfold psdmBead hsdmBead
    funext k i w
    congr 1
    funext i
    rw [hD, sub_self, mul_zero, zero_mul, zero_add]
    ring
  unfold psdmixRhs hsdmixRhs
  simp only [hb, ceq_apparent hε]
  rfl

/-- C284. Without pores the two column models are one. -/
theorem c284_nopores (P : ColParams r p z) (h0 : P.EPOR = 0) (tH : ℝ) (cin : Fin (p + 1) → ℝ) (u : ColState r p z) :
    psdmixRhs P tH cin u = hsdmixRhs P tH cin u := by
  have hb : ∀ u : ColState r p z, psdmBead P tH u = hsdmBead P tH u := by
    intro u
    unfold psdmBead hsdmBead
    funext k i w
    congr 1
    funext i
    rw [h0, zero_mul, zero_mul, zero_add]
    ring
  unfold psdmixRhs hsdmixRhs
  simp only [hb, h0, sub_zero, div_one]

/-- C284. With monovalent ions only and one diffusivity the porosity has no influence: both models have the same rates. -/
theorem c284_monovalent (P : ColParams r p z) (hε : P.EPOR ≠ 1) (hD : P.Dp = P.Ds) (hv : ∀ i, P.val i ≠ 2) (tH : ℝ) (cin : Fin (p + 1) → ℝ)
    (u : ColState r p z) : psdmixRhs P tH cin u = hsdmixRhs P tH cin u := by
  rw [c284_column P hε hD, apparentK_mono hv]

/-- C284. So do the runs: time scale and start know nothing of the selectivities, and a run of the one model is a run of the other. -/
theorem c284_runs (P : ColParams r p z) (hε : P.EPOR ≠ 1) (hD : P.Dp = P.Ds) (Cin : Fin (p + 1) → ℝ) (T : ℝ) (cin : ℝ → Fin (p + 1) → ℝ)
    (y : ℝ → ColState r p z) :
    Spec.Solves colComp (fun t u => psdmixRhs P (tHalf P Cin) (cin t) u) 0 T y ↔
      Spec.Solves colComp (fun t u => hsdmixRhs { P with K := Spec.apparentK P.EPOR P.K P.val }
        (tHalf { P with K := Spec.apparentK P.EPOR P.K P.val } Cin) (cin t) u) 0 T y := by
  have e : (fun (t : ℝ) (u : ColState r p z) => psdmixRhs P (tHalf P Cin) (cin t) u) = fun t u =>
      hsdmixRhs { P with K := Spec.apparentK P.EPOR P.K P.val } (tHalf { P with K := Spec.apparentK P.EPOR P.K P.val } Cin) (cin t) u := by
    funext t u
    rw [c284_column P hε hD]
    rfl
  rw [e]

/-- C284. The same of the batch models: wherever the pore model has rates. -/
theorem c284_batch (P : BatchParams r p) (hε : P.EPOR ≠ 1) (hD : P.Dp = P.Ds ∨ P.EPOR = 0) {u d : BatchState r p} (hd : psdmBatchRhs P u = some d) :
    hsdmBatchRhs { P with K := Spec.apparentK P.EPOR P.K P.val } u = some d := by
  unfold psdmBatchRhs at hd
  dsimp only at hd
  split at hd
  swap
  · cases hd
  rename_i h
  injection hd with hd
  unfold hsdmBatchRhs
  dsimp only
  have e1 := ceqBatch_apparent (K := P.K) (val := P.val) hε (u (Fin.last (r + 1))) (∑ i, P.C0 i)
  obtain ⟨c, hc⟩ := Option.isSome_iff_exists.1 (h (Fin.last r))
  have hc' : ceqBatch P.K P.val (fun i => u (Fin.last (r + 1)) i / (1 - P.EPOR)) (∑ i, P.C0 i) = some c := hc
  rw [← e1, hc', Option.map_some, ← hd]
  congr 1
  have e2 : (ceqBatch P.K P.val (fun i => u (Fin.last r).succ i / (1 - P.EPOR)) (∑ i, P.C0 i)).get (h (Fin.last r)) = c := by
    simp only [hc, Option.get_some]
  rw [e2]
  have e3 : ∀ (k : Fin (r + 1)) (i : Fin (p + 1)) (x : ℝ), P.Ds / P.rb ^ 2 * ∑ l, P.Br k l * u l.succ i =
      (P.EPOR * (P.Dp - P.Ds) * x + P.Ds * ∑ l, P.Br k l * u l.succ i) / P.rb ^ 2 := by
    intro k i x
    rcases hD with hD | hD
    · rw [hD, sub_self]; ring
    · rw [hD]; ring
  have e4 : (fun (k : Fin (r + 1)) (i : Fin (p + 1)) => P.Ds / P.rb ^ 2 * ∑ l, P.Br k l * u l.succ i) = fun k i =>
      (P.EPOR * (P.Dp - P.Ds) * (∑ l, P.Br k l * (ceqBatch P.K P.val (fun i => u l.succ i / (1 - P.EPOR)) (∑ i, P.C0 i)).get (h l) i) +
        P.Ds * ∑ l, P.Br k l * u l.succ i) / P.rb ^ 2 := funext fun k => funext fun i => e3 k i _
  show batchAssemble P _ (fun (k : Fin (r + 1)) (i : Fin (p + 1)) => P.Ds / P.rb ^ 2 * ∑ l, P.Br k l * u l.succ i) = _
  rw [e4]

/-- C284. With monovalent ions only the batch models have the same rates in every state. -/
theorem c284_batch_monovalent (P : BatchParams r p) (hε : P.EPOR ≠ 1) (hD : P.Dp = P.Ds ∨ P.EPOR = 0) (hv : ∀ i, P.val i ≠ 2)
    (u : BatchState r p) : psdmBatchRhs P u = hsdmBatchRhs P u := by
  have hn : ¬ ∃ i, P.val i = 2 := fun ⟨i, hi⟩ => hv i hi
  have hs : ∀ (q : Fin (p + 1) → ℝ) CT, (ceqBatch P.K P.val q CT).isSome := by
    intro q CT
    unfold ceqBatch
    rw [if_neg hn]
    rfl
  cases hp : psdmBatchRhs P u with
  | none =>
    unfold psdmBatchRhs at hp
    dsimp only at hp
    rw [dif_pos fun k => hs _ _] at hp
    cases hp
  | some d =>
    have := c284_batch P hε hD hp
    rw [apparentK_mono hv] at this
    exact this.symm

theorem rCstar_apparent (hε : ε ≠ 1) (q : Fin (p + 1) → ℝ) (CT : ℝ) (w : ℕ) :
    rCstar K val (fun i => q i / (1 - ε)) CT w = rCstar (Spec.apparentK ε K val) val q CT w := by
  have h0 : 1 - ε ≠ 0 := sub_ne_zero.2 (Ne.symm hε)
  unfold rCstar
  by_cases h : ∃ i, val i = 2
  · rw [if_pos h, if_pos h]
    have ebb : 1 / (q 0 / (1 - ε)) * ∑ i ∈ rMv val, q i / (1 - ε) / K i = 1 / q 0 * ∑ i ∈ rMv val, q i / Spec.apparentK ε K val i := by
      rw [one_div_div, div_mul_eq_mul_div, one_div_mul_eq_div, Finset.mul_sum]
      congr 1
      refine Finset.sum_congr rfl fun i hi => ?_
      rw [(apparentK_two hε h i).1 (Finset.mem_filter.1 hi).2.1]
      field_simp
    have eaa : ∑ i ∈ rDv val, 1 / (q 0 / (1 - ε)) ^ 2 * (q i / (1 - ε)) / K i = ∑ i ∈ rDv val, 1 / q 0 ^ 2 * q i / Spec.apparentK ε K val i := by
      refine Finset.sum_congr rfl fun i hi => ?_
      rw [(apparentK_two hε h i).2 (Finset.mem_filter.1 hi).2, div_div_eq_mul_div, div_pow, one_div_div]
      field_simp
    simp only [ebb, eaa]
    funext i
    refine Fin.cases rfl (fun i => ?_) i
    simp only [Fin.cases_succ, recyc_first (fun j : Fin p => K j.succ), recyc_first (fun j : Fin p => Spec.apparentK ε K val j.succ)]
    have := fun c => congrFun (ceqOfRef_apparent hε h q c (K := K)) i.succ
    simp only [ceqOfRef, if_neg (Fin.succ_ne_zero i)] at this
    exact this _
  · rw [if_neg h, if_neg h, apparentK_mono fun i hi => h ⟨i, hi⟩]
    have es : ∑ i, q i / (1 - ε) / K i = (∑ i, q i / K i) / (1 - ε) := by
      rw [Finset.sum_div]
      exact Finset.sum_congr rfl fun i _ => by ring
    simp only [es]
    funext i
    refine Fin.cases rfl (fun i => ?_) i
    simp only [Fin.cases_succ]
    rw [div_right_comm (q i.succ), div_right_comm _ _ CT, div_div_div_cancel_right₀ h0]

/-- C284. The same of the functions of the web application, which spread the diffusivities differently over bead points and ions (C137). -/
theorem c284_web (P : ColParams r p z) (hε : P.EPOR ≠ 1) (hD : P.Dp = P.Ds ∨ P.EPOR = 0) (cin : Fin (p + 1) → ℝ) (x : RState r p z) :
    rPsdmDiffun P cin x = rHsdmDiffun { P with K := Spec.apparentK P.EPOR P.K P.val } cin x := by
  have hb : ∀ Y Cp : Fin (r + 1) → Fin (p + 1) → Fin (z + 1) → ℝ, rBeadP P Y Cp = rBeadH P Y := by
    intro Y Cp
    funext k i w
    unfold rBeadP rBeadH
    have hz : ∀ n, recyc (fun j : Fin p => P.EPOR * (P.Dp j.succ - P.Ds j.succ)) n = 0 := by
      intro n
      unfold recyc
      split
      · rcases hD with hD | hD
        · beta_reduce; rw [hD, sub_self, mul_zero]
        · beta_reduce; rw [hD, zero_mul]
      · rfl
    have hs : ∀ n, recyc (fun j : Fin p => P.Ds j.succ * 1 / P.rb ^ 2) n = recyc (fun j : Fin p => P.Ds j.succ) n / P.rb ^ 2 := by
      intro n
      unfold recyc
      split
      · beta_reduce; rw [mul_one]
      · rw [zero_div]
    rw [hz, hs]
    ring
  unfold rPsdmDiffun rHsdmDiffun
  simp only [hb, rCstar_apparent hε]
  rfl

end

/-- Beads half of which are pores, chloride as presaturant and a divalent ion of selectivity 2: the column runs as one of homogeneous beads with selectivity 4. -/
example (u : ColState 1 1 1) (tH : ℝ) (cin : Fin 2 → ℝ) (Az : Fin 2 → Fin 2 → ℝ) (Br : Fin 2 → Fin 2 → ℝ) (Wr : Fin 2 → ℝ) :
    psdmixRhs (r := 1) (p := 1) (z := 1) ⟨1 / 4, 10, 1, 1 / 10, 1000, 1 / 2, 1, 1, 1, ![1, 2], ![1, 2], Az, Br, Wr⟩ tH cin u =
      hsdmixRhs (r := 1) (p := 1) (z := 1) ⟨1 / 4, 10, 1, 1 / 10, 1000, 1 / 2, 1, 1, 1, ![1, 4], ![1, 2], Az, Br, Wr⟩ tH cin u := by
  have e : Spec.apparentK (1 / 2) (![1, 2] : Fin 2 → ℝ) ![1, 2] = ![1, 4] := by
    have h2 : ∃ i : Fin 2, (![1, 2] : Fin 2 → ℕ) i = 2 := ⟨1, rfl⟩
    funext i
    fin_cases i
    · exact ((apparentK_two (by norm_num) h2 0).1 rfl).trans rfl
    · refine ((apparentK_two (by norm_num) h2 1).2 rfl).trans ?_
      norm_num
  rw [c284_column _ (by norm_num) rfl]
  simp only [e]

end WTM
