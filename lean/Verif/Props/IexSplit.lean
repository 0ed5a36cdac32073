import Mathlib.Tactic
import Verif.Props.IexOrder

/-! Properties C236, C237: an ion entered in several parts. -/
set_option autoImplicit false
namespace WTM
open BigOperators Set

section
variable {r p p' z : ℕ}

/-- The sum of the parts `j` of ion `i`; `g j` is the ion of which `j` is a part. -/
def Spec.sumParts (g : Fin (p' + 1) → Fin (p + 1)) (f : Fin (p' + 1) → ℝ) (i : Fin (p + 1)) : ℝ := ∑ j, if g j = i then f j else 0

/-- `g` says of which ion each one of the longer list is a part; every ion has a part and the presaturant has one. -/
def Spec.Parts (g : Fin (p' + 1) → Fin (p + 1)) : Prop := Function.Surjective g ∧ ∀ j, g j = 0 ↔ j = 0

/-- The state in which the parts are added up. -/
def Spec.merge (g : Fin (p' + 1) → Fin (p + 1)) (u : ColState r p' z) : ColState r p z :=
  fun a i w => Spec.sumParts g (fun j => u a j w) i

section
variable {g : Fin (p' + 1) → Fin (p + 1)}

theorem total_zero (hg : Spec.Parts g) (f : Fin (p' + 1) → ℝ) : Spec.sumParts g f 0 = f 0 := by
  unfold Spec.sumParts
  simp [hg.2]

theorem total_sum (f : Fin (p' + 1) → ℝ) : ∑ i, Spec.sumParts g f i = ∑ j, f j := by
  unfold Spec.sumParts
  rw [Finset.sum_comm]
  simp

theorem total_mul (F : Fin (p + 1) → ℝ) (f : Fin (p' + 1) → ℝ) (i : Fin (p + 1)) :
    Spec.sumParts g (fun j => F (g j) * f j) i = F i * Spec.sumParts g f i := by
  unfold Spec.sumParts
  rw [Finset.mul_sum]
  refine Finset.sum_congr rfl fun j _ => ?_
  by_cases h : g j = i
  · simp only [if_pos h]
    rw [h]
  · simp only [if_neg h, mul_zero]

theorem total_add (f h : Fin (p' + 1) → ℝ) (i : Fin (p + 1)) :
    Spec.sumParts g (fun j => f j + h j) i = Spec.sumParts g f i + Spec.sumParts g h i := by
  unfold Spec.sumParts
  rw [← Finset.sum_add_distrib]
  refine Finset.sum_congr rfl fun j _ => ?_
  split <;> simp

theorem total_sub (f h : Fin (p' + 1) → ℝ) (i : Fin (p + 1)) :
    Spec.sumParts g (fun j => f j - h j) i = Spec.sumParts g f i - Spec.sumParts g h i := by
  unfold Spec.sumParts
  rw [← Finset.sum_sub_distrib]
  refine Finset.sum_congr rfl fun j _ => ?_
  split <;> simp

theorem total_div (f : Fin (p' + 1) → ℝ) (c : ℝ) (i : Fin (p + 1)) :
    Spec.sumParts g (fun j => f j / c) i = Spec.sumParts g f i / c := by
  have := total_mul (g := g) (fun _ => c⁻¹) f i
  rw [div_eq_inv_mul, ← this]
  refine congrArg (fun f => Spec.sumParts g f i) (funext fun j => ?_)
  rw [div_eq_inv_mul]

theorem total_smul (c : ℝ) (f : Fin (p' + 1) → ℝ) (i : Fin (p + 1)) :
    Spec.sumParts g (fun j => c * f j) i = c * Spec.sumParts g f i := total_mul (fun _ => c) f i

theorem total_lin {ι : Type} [Fintype ι] (b : ι → ℝ) (f : ι → Fin (p' + 1) → ℝ) (i : Fin (p + 1)) :
    Spec.sumParts g (fun j => ∑ l, b l * f l j) i = ∑ l, b l * Spec.sumParts g (f l) i := by
  unfold Spec.sumParts
  simp only [Finset.mul_sum]
  rw [Finset.sum_comm]
  refine Finset.sum_congr rfl fun j _ => ?_
  split
  · rfl
  · simp

/-- Sums of a loading with a factor per ion. -/
theorem sum_total (F : Fin (p + 1) → ℝ) (q : Fin (p' + 1) → ℝ) :
    ∑ i, F i * Spec.sumParts g q i = ∑ j, F (g j) * q j := by
  rw [← total_sum (g := g)]
  exact Finset.sum_congr rfl fun i _ => (total_mul F q i).symm

theorem total_implicit (hg : Spec.Parts g) (f : Fin (p' + 1) → ℝ) (i : Fin (p + 1)) :
    Spec.sumParts g (implicitRef f) i = implicitRef (Spec.sumParts g f) i := by
  by_cases hi : i = 0
  · subst hi
    rw [total_zero hg, implicit_zero, implicit_zero, total_zero hg, total_sum]
  · unfold Spec.sumParts implicitRef
    rw [if_neg hi]
    refine Finset.sum_congr rfl fun j _ => ?_
    by_cases hj : g j = i
    · rw [if_pos hj, if_pos hj, if_neg]
      intro h0
      exact hi (hj.symm.trans ((hg.2 j).2 h0))
    · rw [if_neg hj, if_neg hj]

variable {K : Fin (p + 1) → ℝ} {val : Fin (p + 1) → ℕ} {q : Fin (p' + 1) → ℝ}

theorem eqAA_total (hg : Spec.Parts g) : eqAA K val (Spec.sumParts g q) = eqAA (K ∘ g) (val ∘ g) q := by
  unfold eqAA
  rw [total_zero hg]
  have h1 : ∀ i, (if val i = 2 then Spec.sumParts g q i / K i else 0) = (if val i = 2 then 1 / K i else 0) * Spec.sumParts g q i := by
    intro i
    split <;> ring
  simp only [h1, sum_total]
  congr 1
  refine Finset.sum_congr rfl fun j _ => ?_
  simp only [Function.comp_apply]
  split <;> ring

theorem eqBB_total (hg : Spec.Parts g) : eqBB K val (Spec.sumParts g q) = eqBB (K ∘ g) (val ∘ g) q := by
  unfold eqBB
  rw [total_zero hg]
  have h1 : ∀ i : Fin (p + 1), (if val i = 1 ∧ i ≠ 0 then Spec.sumParts g q i / K i else 0) =
      (if val i = 1 ∧ i ≠ 0 then 1 / K i else 0) * Spec.sumParts g q i := by
    intro i
    split <;> ring
  simp only [h1, sum_total]
  congr 2
  refine Finset.sum_congr rfl fun j _ => ?_
  simp only [Function.comp_apply, ne_eq, hg.2]
  split <;> ring

theorem ceqOfRef_total (hg : Spec.Parts g) (c : ℝ) (i : Fin (p + 1)) :
    Spec.sumParts g (ceqOfRef (K ∘ g) (val ∘ g) q c) i = ceqOfRef K val (Spec.sumParts g q) c i := by
  by_cases hi : i = 0
  · subst hi
    rw [total_zero hg]
    unfold ceqOfRef
    rw [if_pos rfl, if_pos rfl]
  · have h1 : ceqOfRef K val (Spec.sumParts g q) c i = (1 / K i * (c / q 0) ^ val i) * Spec.sumParts g q i := by
      unfold ceqOfRef
      rw [if_neg hi, total_zero hg]
      ring
    rw [h1, ← total_mul (fun i => 1 / K i * (c / q 0) ^ val i)]
    unfold Spec.sumParts
    refine Finset.sum_congr rfl fun j _ => ?_
    by_cases hj : g j = i
    · rw [if_pos hj, if_pos hj]
      unfold ceqOfRef
      rw [if_neg fun h0 => hi (hj.symm.trans ((hg.2 j).2 h0))]
      simp only [Function.comp_apply]
      ring
    · rw [if_neg hj, if_neg hj]

theorem ceqMv_total (CT : ℝ) (i : Fin (p + 1)) : Spec.sumParts g (ceqMv (K ∘ g) q CT) i = ceqMv K (Spec.sumParts g q) CT i := by
  have h1 : ∀ j, ceqMv (K ∘ g) q CT j = (CT / ∑ l, alphaMat K (g j) l * Spec.sumParts g q l) * q j := by
    intro j
    unfold ceqMv
    rw [sum_total]
    simp only [alphaMat, Function.comp_apply]
    ring
  rw [show ceqMv (K ∘ g) q CT = fun j => (CT / ∑ l, alphaMat K (g j) l * Spec.sumParts g q l) * q j from funext h1,
    total_mul (fun i => CT / ∑ l, alphaMat K i l * Spec.sumParts g q l)]
  unfold ceqMv
  ring

theorem ceq_total (hg : Spec.Parts g) (CT : ℝ) (i : Fin (p + 1)) :
    Spec.sumParts g (ceq (K ∘ g) (val ∘ g) q CT) i = ceq K val (Spec.sumParts g q) CT i := by
  unfold ceq
  by_cases h : ∃ i, val i = 2
  · have h' : ∃ j, (val ∘ g) j = 2 := by
      obtain ⟨i, hi⟩ := h
      obtain ⟨j, rfl⟩ := hg.1 i
      exact ⟨j, hi⟩
    rw [if_pos h, if_pos h']
    unfold ceqDv
    rw [ceqOfRef_total hg]
    unfold refConc
    rw [eqAA_total hg, eqBB_total hg]
  · have h' : ¬ ∃ j, (val ∘ g) j = 2 := fun ⟨j, hj⟩ => h ⟨g j, hj⟩
    rw [if_neg h, if_neg h', ceqMv_total]

end

/-! ### C236 -/

/-- C236. The rates of the parts add up to the rate of the ion, in both column models. -/
theorem c236_rates (m : ColModel) {g : Fin (p' + 1) → Fin (p + 1)} (hg : Spec.Parts g) (P : ColParams r p z) (tH : ℝ)
    (cin : Fin (p' + 1) → ℝ) (u : ColState r p' z) :
    Spec.merge g (m.rhs (Spec.pick g P) tH cin u) = m.rhs P tH (Spec.sumParts g cin) (Spec.merge g u) := by
  have hin : ∀ a i w, setInlet (Spec.merge g u) (Spec.sumParts g cin) a i w = Spec.sumParts g (fun j => setInlet u cin a j w) i := by
    intro a i w
    unfold setInlet
    split <;> rfl
  have hCT : ∀ w, ∑ i, setInlet (Spec.merge g u) (Spec.sumParts g cin) 0 i w = ∑ j, setInlet u cin 0 j w := by
    intro w
    simp only [hin]
    exact total_sum _
  have hload : ∀ a i w, m.load P (setInlet (Spec.merge g u) (Spec.sumParts g cin) a i w) =
      Spec.sumParts g (fun j => m.load (Spec.pick g P) (setInlet u cin a j w)) i := by
    intro a i w
    rw [hin]
    cases m
    · rfl
    · exact (total_div _ _ _).symm
  have hceq : ∀ a w i, Spec.sumParts g (ceq (Spec.pick g P).K (Spec.pick g P).val
      (fun j => m.load (Spec.pick g P) (setInlet u cin a j w)) (∑ j, setInlet u cin 0 j w)) i =
      ceq P.K P.val (fun i => m.load P (setInlet (Spec.merge g u) (Spec.sumParts g cin) a i w))
        (∑ i, setInlet (Spec.merge g u) (Spec.sumParts g cin) 0 i w) i := by
    intro a w i
    rw [hCT]
    simp only [hload]
    exact ceq_total hg _ i
  have hflux : ∀ i w, Spec.sumParts g (fun j => m.flux (Spec.pick g P) (setInlet u cin) j w) i =
      m.flux P (setInlet (Spec.merge g u) (Spec.sumParts g cin)) i w := by
    intro i w
    unfold ColModel.flux fluxJ
    refine (total_implicit hg _ i).trans (congrArg (fun f => implicitRef f i) (funext fun i => ?_))
    beta_reduce
    rw [← hceq, hin, ← total_sub, ← total_mul (fun i => -P.kL i)]
    rfl
  have hliq : ∀ i w, Spec.sumParts g (fun j => liqRate (Spec.pick g P) tH (setInlet u cin 0)
      (m.flux (Spec.pick g P) (setInlet u cin)) j w) i =
      liqRate P tH (setInlet (Spec.merge g u) (Spec.sumParts g cin) 0) (m.flux P (setInlet (Spec.merge g u) (Spec.sumParts g cin))) i w := by
    intro i w
    have form : ∀ {n : ℕ} (C J : Fin (n + 1) → Fin (z + 1) → ℝ) (i : Fin (n + 1)),
        (-P.v / P.L * (∑ w', P.Az w w' * C i w') + (1 - P.EBED) * (J i w * 3 / P.rb)) / P.EBED * tH =
        (-P.v / P.L / P.EBED * tH) * (∑ w', P.Az w w' * C i w') + ((1 - P.EBED) * 3 / P.rb / P.EBED * tH) * J i w := by
      intro n C J i
      ring
    unfold liqRate
    rw [form, ← hflux]
    simp only [hin]
    rw [← total_lin, ← total_smul, ← total_smul, ← total_add]
    exact congrArg (fun f => Spec.sumParts g f i) (funext fun j => form _ _ j)
  have hbead : ∀ k i w, Spec.sumParts g (fun j => m.bead (Spec.pick g P) tH (setInlet u cin) k j w) i =
      m.bead P tH (setInlet (Spec.merge g u) (Spec.sumParts g cin)) k i w := by
    intro k i w
    cases m
    · show Spec.sumParts g (fun j => hsdmBead (Spec.pick g P) tH (setInlet u cin) k j w) i = hsdmBead P tH _ k i w
      unfold hsdmBead
      refine (total_implicit hg _ i).trans (congrArg (fun f => implicitRef f i) (funext fun i => ?_))
      simp only [hin]
      rw [← total_lin, ← total_mul (fun i => P.Ds i * tH / P.rb ^ 2)]
      rfl
    · show Spec.sumParts g (fun j => psdmBead (Spec.pick g P) tH (setInlet u cin) k j w) i = psdmBead P tH _ k i w
      unfold psdmBead
      refine (total_implicit hg _ i).trans (congrArg (fun f => implicitRef f i) (funext fun i => ?_))
      have hpore : ∀ l, Spec.sumParts g (fun j => poreConc (Spec.pick g P) (setInlet u cin) l j w) i =
          poreConc P (setInlet (Spec.merge g u) (Spec.sumParts g cin)) l i w := fun l => hceq l.succ w i
      simp only [hin, ← hpore]
      rw [← total_lin, ← total_lin, ← total_mul (fun i => P.EPOR * (P.Dp i - P.Ds i)), ← total_mul (fun i => P.Ds i), ← total_add,
        ← total_smul, ← total_div]
      rfl
  funext a i w
  unfold Spec.merge
  rw [rhs_eq, rhs_eq]
  refine Fin.cases ?_ (fun k => ?_) a
  · simp only [assemble_liq]
    by_cases hw : w = 0
    · simp only [if_pos hw]
      unfold Spec.sumParts
      simp
    · simp only [if_neg hw]
      exact hliq i w
  · simp only [assemble_bead]
    by_cases hk : k = Fin.last r
    · simp only [if_pos hk]
      rw [total_div, total_sub, total_smul, total_lin]
      simp only [hflux, hbead]
      rfl
    · simp only [if_neg hk]
      exact hbead k i w

theorem total_presat {g : Fin (p' + 1) → Fin (p + 1)} (hg : Spec.Parts g) (X : ℝ) (i : Fin (p + 1)) :
    Spec.sumParts g (fun j => if j = 0 then X else 0) i = if i = 0 then X else 0 := by
  unfold Spec.sumParts
  by_cases hi : i = 0
  · subst hi
    simp [hg.2]
  · rw [if_neg hi]
    refine Finset.sum_eq_zero fun j _ => ?_
    split
    · rename_i hj
      beta_reduce
      rw [if_neg fun h0 => hi (hj.symm.trans ((hg.2 j).2 h0))]
    · rfl

/-- C236. The start and the time scale of the parts are those of the ion. -/
theorem c236_start {g : Fin (p' + 1) → Fin (p + 1)} (hg : Spec.Parts g) (P : ColParams r p z) (cin : Fin (p' + 1) → ℝ) :
    Spec.merge g (colInit P.Q cin none : ColState r p' z) = (colInit P.Q (Spec.sumParts g cin) none : ColState r p z) ∧
    tHalf (Spec.pick g P) cin = tHalf P (Spec.sumParts g cin) := by
  constructor
  · funext a i w
    unfold Spec.merge colInit
    by_cases ha : a = 0
    · by_cases hw : w = 0
      · simp [ha, hw]
      · simp only [ha, hw, if_true, if_false, total_sum]
        exact total_presat hg _ i
    · simp only [ha, if_false]
      exact total_presat hg _ i
  · unfold tHalf
    rw [total_sum]
    rfl

/-- C236. So the parts of an ion in a run of the longer list add up to the ion in a run of the shorter one. -/
theorem c236_run (m : ColModel) {g : Fin (p' + 1) → Fin (p + 1)} (hg : Spec.Parts g) (P : ColParams r p z) (tH : ℝ)
    {cin : ℝ → Fin (p' + 1) → ℝ} {t0 t1 : ℝ} (hc : ContinuousOn cin (Icc t0 t1)) {y : ℝ → ColState r p z} {Y : ℝ → ColState r p' z}
    (hY : Spec.Solves colComp (fun t u => m.rhs (Spec.pick g P) tH (cin t) u) t0 t1 Y)
    (hy : Spec.Solves colComp (fun t u => m.rhs P tH (Spec.sumParts g (cin t)) u) t0 t1 y)
    (hs : y t0 = Spec.merge g (Y t0)) (hreg : ∀ t ∈ Ico t0 t1, m.Regular P (Spec.sumParts g (cin t)) (y t)) :
    ∀ t ∈ Icc t0 t1, ∀ a i w, y t a i w = ∑ j, if g j = i then Y t a j w else 0 := by
  have hz : Spec.Solves colComp (fun t u => m.rhs P tH (Spec.sumParts g (cin t)) u) t0 t1 (fun t => Spec.merge g (Y t)) := by
    intro t ht a
    simp only [← c236_rates m hg P tH (cin t) (Y t)]
    show HasDerivWithinAt (fun t => ∑ j, if g j = a.2.1 then Y t a.1 j a.2.2 else 0)
      (∑ j, if g j = a.2.1 then m.rhs (Spec.pick g P) tH (cin t) (Y t) a.1 j a.2.2 else 0) _ _
    refine HasDerivWithinAt.fun_sum fun j _ => ?_
    split
    · exact hY t ht (a.1, j, a.2.2)
    · exact hasDerivWithinAt_const _ _ _
  have hcg : ContinuousOn (fun t => Spec.sumParts g (cin t)) (Icc t0 t1) := by
    rw [continuousOn_pi] at hc ⊢
    intro i
    unfold Spec.sumParts
    refine continuousOn_finsetSum _ fun j _ => ?_
    split
    · exact hc j
    · exact continuousOn_const
  intro t ht a i w
  rw [c209_unique m P tH hcg hy hz hs hreg t ht]
  rfl

/-! ### C237 -/

/-- The batch of the longer list with initial concentrations `C0`. -/
def Spec.partBatch (g : Fin (p' + 1) → Fin (p + 1)) (P : BatchParams r p) (C0 : Fin (p' + 1) → ℝ) : BatchParams r p' :=
  { Spec.pickBatch g P with C0 := C0 }

/-- The state in which the parts are added up. -/
def Spec.mergeBatch (g : Fin (p' + 1) → Fin (p + 1)) (u : BatchState r p') : BatchState r p :=
  fun a i => Spec.sumParts g (fun j => u a j) i

theorem ceqB_parts {g : Fin (p' + 1) → Fin (p + 1)} {K : Fin (p + 1) → ℝ} {val : Fin (p + 1) → ℕ} {q : Fin (p' + 1) → ℝ}
    (hg : Spec.Parts g) (CT : ℝ) (i : Fin (p + 1)) :
    Spec.sumParts g (ceqB (K ∘ g) (val ∘ g) q CT) i = ceqB K val (Spec.sumParts g q) CT i := by
  unfold ceqB
  by_cases h : ∃ i, val i = 2
  · have h' : ∃ j, (val ∘ g) j = 2 := by
      obtain ⟨i, hi⟩ := h
      obtain ⟨j, rfl⟩ := hg.1 i
      exact ⟨j, hi⟩
    rw [if_pos h, if_pos h', ceqOfRef_total hg, eqAA_total hg, eqBB_total hg]
  · have h' : ¬ ∃ j, (val ∘ g) j = 2 := fun ⟨j, hj⟩ => h ⟨g j, hj⟩
    rw [if_neg h, if_neg h', ceqMv_total]

theorem div_total {g : Fin (p' + 1) → Fin (p + 1)} (f : Fin (p' + 1) → ℝ) (c : ℝ) :
    (fun i => Spec.sumParts g f i / c) = Spec.sumParts g (fun j => f j / c) := funext fun i => (total_div f c i).symm

/-- C237. The rates of the parts add up to the rate of the ion in both batch models. -/
theorem c237_rates (m : BatchModel) {g : Fin (p' + 1) → Fin (p + 1)} (hg : Spec.Parts g) (P : BatchParams r p)
    {C0 : Fin (p' + 1) → ℝ} (hC : P.C0 = Spec.sumParts g C0) (u : BatchState r p') :
    m.rhs P (Spec.mergeBatch g u) = (m.rhs (Spec.partBatch g P C0) u).map (Spec.mergeBatch g) := by
  have hv : (∃ i, P.val i = 2) ↔ ∃ j, (Spec.partBatch g P C0).val j = 2 := by
    constructor
    · rintro ⟨i, hi⟩
      obtain ⟨j, rfl⟩ := hg.1 i
      exact ⟨j, hi⟩
    · rintro ⟨j, hj⟩
      exact ⟨g j, hj⟩
  have hCT : ∑ i, P.C0 i = ∑ j, C0 j := by
    rw [hC]
    exact total_sum _
  have hcond : m.Cond P (Spec.mergeBatch g u) ↔ m.Cond (Spec.partBatch g P C0) u := by
    cases m
    · unfold BatchModel.Cond
      simp only
      rw [hv, show Spec.mergeBatch g u (Fin.last (r + 1)) = Spec.sumParts g (u (Fin.last (r + 1))) from rfl, eqAA_total hg]
      rfl
    · unfold BatchModel.Cond
      simp only
      refine forall_congr' fun k => ?_
      rw [hv, show (fun i => Spec.mergeBatch g u k.succ i / (1 - P.EPOR)) = Spec.sumParts g (fun j => u k.succ j / (1 - P.EPOR)) from
        div_total _ _, eqAA_total hg]
      rfl
  have hfield : m.field P (Spec.mergeBatch g u) = Spec.mergeBatch g (m.field (Spec.partBatch g P C0) u) := by
    have asm : ∀ (J : Fin (p' + 1) → ℝ) (dq : Fin (r + 1) → Fin (p' + 1) → ℝ),
        Spec.mergeBatch g (batchAssemble (Spec.partBatch g P C0) J dq) =
        batchAssemble P (Spec.sumParts g J) (fun k => Spec.sumParts g (dq k)) := by
      intro J dq
      funext a i
      unfold Spec.mergeBatch batchAssemble
      refine Fin.cases ?_ (fun k => ?_) a
      · simp only [Fin.cases_zero]
        rw [total_div, total_smul]
        rfl
      · simp only [Fin.cases_succ]
        by_cases hk : k = Fin.last r
        · simp only [if_pos hk]
          rw [total_div, total_sub, total_lin, total_div]
          have : Spec.sumParts g (fun j => -J j) i = -Spec.sumParts g J i := by
            have := total_smul (g := g) (-1) J i
            simpa using this
          rw [this]
          rfl
        · simp only [if_neg hk]
    cases m
    · unfold BatchModel.field
      simp only
      rw [asm]
      congr 1
      · funext i
        show -P.kL * (Spec.sumParts g (u 0) i - ceqB P.K P.val (Spec.sumParts g (u (Fin.last (r + 1)))) (∑ i, P.C0 i) i) = _
        rw [hCT, ← ceqB_parts hg, ← total_sub, ← total_smul]
        rfl
      · funext k i
        show P.Ds / P.rb ^ 2 * ∑ l, P.Br k l * Spec.sumParts g (u (Fin.succ l)) i = _
        rw [← total_lin, ← total_smul]
        rfl
    · unfold BatchModel.field
      simp only
      rw [asm]
      have hc : ∀ (l : Fin (r + 1)) i, ceqB P.K P.val (fun i => Spec.mergeBatch g u l.succ i / (1 - P.EPOR)) (∑ i, P.C0 i) i =
          Spec.sumParts g (ceqB (P.K ∘ g) (P.val ∘ g) (fun j => u l.succ j / (1 - P.EPOR)) (∑ j, C0 j)) i := by
        intro l i
        rw [hCT, show (fun i => Spec.mergeBatch g u l.succ i / (1 - P.EPOR)) = Spec.sumParts g (fun j => u l.succ j / (1 - P.EPOR)) from
          div_total _ _, ceqB_parts hg]
      simp only [hc]
      congr 1
      · funext i
        show -P.kL * (Spec.sumParts g (u 0) i - _) = _
        rw [← total_sub, ← total_smul]
        rfl
      · funext k i
        show (P.EPOR * (P.Dp - P.Ds) * _ + P.Ds * ∑ l, P.Br k l * Spec.sumParts g (u (Fin.succ l)) i) / P.rb ^ 2 = _
        rw [← total_lin, ← total_lin, ← total_smul, ← total_smul, ← total_add, ← total_div]
        rfl
  by_cases h : m.Cond P (Spec.mergeBatch g u)
  · have h1 : m.rhs P (Spec.mergeBatch g u) = some _ := rhs_field m P h
    have h2 : m.rhs (Spec.partBatch g P C0) u = some _ := rhs_field m _ (hcond.1 h)
    rw [h1, h2, hfield]
    rfl
  · rw [rhs_none m P h, rhs_none m _ (fun h' => h (hcond.2 h'))]
    rfl

/-- C237 for the start, as far as it holds: every divalent ion has one part. -/
theorem batchInit_total {g : Fin (p' + 1) → Fin (p + 1)} (hg : Spec.Parts g) (P : BatchParams r p) {C0 : Fin (p' + 1) → ℝ}
    (hC : P.C0 = Spec.sumParts g C0) (h1 : ∀ j j', P.val (g j) = 2 → g j = g j' → j = j') :
    Spec.mergeBatch g (batchInit (Spec.partBatch g P C0)) = batchInit P := by
  have hv : (∃ j, (Spec.partBatch g P C0).val j = 2) ↔ ∃ i, P.val i = 2 := by
    constructor
    · rintro ⟨j, hj⟩
      exact ⟨g j, hj⟩
    · rintro ⟨i, hi⟩
      obtain ⟨j, rfl⟩ := hg.1 i
      exact ⟨j, hi⟩
  have hcard : (Finset.univ.filter (fun j => (Spec.partBatch g P C0).val j = 2)).card =
      (Finset.univ.filter (fun i => P.val i = 2)).card := by
    refine Finset.card_bij (fun j _ => g j) (fun j hj => ?_) (fun j hj j' _ h => h1 j j' (Finset.mem_filter.1 hj).2 h)
      (fun i hi => ?_)
    · exact Finset.mem_filter.2 ⟨Finset.mem_univ _, (Finset.mem_filter.1 hj).2⟩
    · obtain ⟨j, rfl⟩ := hg.1 i
      exact ⟨j, Finset.mem_filter.2 ⟨Finset.mem_univ _, (Finset.mem_filter.1 hi).2⟩, rfl⟩
  funext a i
  unfold Spec.mergeBatch batchInit
  simp only [hcard, hv]
  by_cases ha : a = 0
  · simp only [if_pos ha, hC]
    rfl
  · simp only [if_neg ha]
    by_cases h2 : ∃ i, P.val i = 2
    · simp only [if_pos h2]
      by_cases hi : i = 0
      · subst hi
        rw [total_zero hg]
        rfl
      · simp only [if_neg hi]
        obtain ⟨j, rfl⟩ := hg.1 i
        by_cases hj : P.val (g j) = 2
        · rw [if_pos hj]
          unfold Spec.sumParts
          rw [Finset.sum_eq_single j]
          · rw [if_pos rfl]
            beta_reduce
            rw [if_neg fun h => hi ((hg.2 j).2 h)]
            exact if_pos hj
          · intro j' _ hne
            rw [if_neg fun h => hne (h1 j j' hj h.symm).symm]
          · intro h; exact absurd (Finset.mem_univ j) h
        · rw [if_neg hj]
          unfold Spec.sumParts
          refine Finset.sum_eq_zero fun j' _ => ?_
          split
          · rename_i h'
            beta_reduce
            rw [if_neg fun h => hi (h'.symm.trans ((hg.2 j').2 h))]
            exact if_neg (by rw [← h'] at hj; exact hj)
          · rfl
    · simp only [if_neg h2]
      exact total_presat hg _ i

/-- C237. An ion entered in several parts is the same batch: the parts add up to the ion at the start and in the rates. -/
def C237 : Prop := ∀ (m : BatchModel) (r p p' : ℕ) (g : Fin (p' + 1) → Fin (p + 1)) (P : BatchParams r p) (C0 : Fin (p' + 1) → ℝ)
  (u : BatchState r p'), Spec.Parts g → P.C0 = Spec.sumParts g C0 →
  Spec.mergeBatch g (batchInit (Spec.partBatch g P C0)) = batchInit P ∧
  m.rhs P (Spec.mergeBatch g u) = (m.rhs (Spec.partBatch g P C0) u).map (Spec.mergeBatch g)

/-- C237, as far as it holds: no divalent ion has more than one part. For the rates that is not needed (`c237_rates`). Missing: divalent
ions in parts, each of which starts with a thousandth of the capacity. -/
theorem c237_partial (m : BatchModel) {g : Fin (p' + 1) → Fin (p + 1)} (P : BatchParams r p) (C0 : Fin (p' + 1) → ℝ)
    (u : BatchState r p') (hg : Spec.Parts g) (hC : P.C0 = Spec.sumParts g C0) (h1 : ∀ j j', P.val (g j) = 2 → g j = g j' → j = j') :
    Spec.mergeBatch g (batchInit (Spec.partBatch g P C0)) = batchInit P ∧
    m.rhs P (Spec.mergeBatch g u) = (m.rhs (Spec.partBatch g P C0) u).map (Spec.mergeBatch g) :=
  ⟨batchInit_total hg P hC h1, c237_rates m hg P hC u⟩

/-- C237. The loading at the start of an ion in `n` parts is `n` thousandths of the capacity if it is divalent. -/
theorem c237_start {g : Fin (p' + 1) → Fin (p + 1)} (hg : Spec.Parts g) (P : BatchParams r p) (C0 : Fin (p' + 1) → ℝ)
    {i : Fin (p + 1)} (hi : i ≠ 0) (hv : P.val i = 2) (k : Fin (r + 1)) :
    Spec.mergeBatch g (batchInit (Spec.partBatch g P C0)) k.succ i =
      (Finset.univ.filter (fun j => g j = i)).card * (P.RHOP * P.Qm / 1e3) := by
  unfold Spec.mergeBatch Spec.sumParts
  rw [← Finset.sum_filter, Finset.sum_congr rfl (g := fun _ => P.RHOP * P.Qm / 1e3), Finset.sum_const, nsmul_eq_mul]
  intro j hj
  have hji := (Finset.mem_filter.1 hj).2
  exact c234_seeded (Spec.partBatch g P C0) (fun h => hi (hji.symm.trans ((hg.2 j).2 h)))
    (show P.val (g j) = 2 by rw [hji, hv]) k

/-- C237. Over a whole run. -/
theorem c237_run (m : BatchModel) {g : Fin (p' + 1) → Fin (p + 1)} (P : BatchParams r p) (C0 : Fin (p' + 1) → ℝ)
    (hg : Spec.Parts g) (hC : P.C0 = Spec.sumParts g C0) (h1 : ∀ j j', P.val (g j) = 2 → g j = g j' → j = j') {t0 t1 : ℝ}
    {y : ℝ → BatchState r p} {Y : ℝ → BatchState r p'} (hY : m.Runs (Spec.partBatch g P C0) t0 t1 Y)
    (hY0 : Y t0 = batchInit (Spec.partBatch g P C0)) (hy : m.Runs P t0 t1 y) (hy0 : y t0 = batchInit P)
    (hreg : ∀ t ∈ Ico t0 t1, m.Regular P (y t)) :
    ∀ t ∈ Icc t0 t1, ∀ a i, y t a i = ∑ j, if g j = i then Y t a j else 0 := by
  have hz : m.Runs P t0 t1 (fun t => Spec.mergeBatch g (Y t)) := by
    intro t ht
    obtain ⟨d, hd, hder⟩ := hY t ht
    refine ⟨Spec.mergeBatch g d, ?_, fun a i => ?_⟩
    · rw [c237_rates m hg P hC, hd]
      rfl
    · show HasDerivWithinAt (fun t => ∑ j, if g j = i then Y t a j else 0) (∑ j, if g j = i then d a j else 0) _ _
      refine HasDerivWithinAt.fun_sum fun j _ => ?_
      split
      · exact hder a j
      · exact hasDerivWithinAt_const _ _ _
  intro t ht a i
  rw [c209_batch_unique m P hy hz (by rw [hy0, hY0, batchInit_total hg P hC h1]) hreg t ht]
  rfl

end

theorem parts_demo : Spec.Parts (![0, 1, 1] : Fin 3 → Fin 2) := by
  constructor
  · intro i
    fin_cases i
    · exact ⟨0, rfl⟩
    · exact ⟨1, rfl⟩
  · decide

/-- A batch with a divalent ion. -/
noncomputable def c237Batch : BatchParams 0 1 where
  RHOP := 1
  Qm := 1
  EPOR := 0
  VR := 1
  VL := 1
  Ds := 1
  Dp := 1
  kL := 1
  rb := 1
  C0 := ![1, 2]
  K := ![1, 1]
  val := ![1, 2]
  Br := fun _ _ => 0
  Wr := fun _ => 1

theorem c237Batch_C0 : c237Batch.C0 = Spec.sumParts ![0, 1, 1] ![1, 1 / 2, 3 / 2] := by
  funext i
  unfold Spec.sumParts
  fin_cases i
  · simp [c237Batch, Fin.sum_univ_succ]
  · simp [c237Batch, Fin.sum_univ_succ]
    norm_num

/-- C237 is false: a divalent ion in two parts. -/
theorem c237_false : ¬ C237 := by
  intro h
  have h1 := (h .hsdm 0 1 2 ![0, 1, 1] c237Batch _ (fun _ _ => 0) parts_demo c237Batch_C0).1
  have h2 := congrFun (congrFun h1 (Fin.succ 0)) 1
  rw [c237_start parts_demo _ _ (by decide) rfl, c234_seeded c237Batch (by decide) rfl,
    show (Finset.univ.filter (fun j => (![0, 1, 1] : Fin 3 → Fin 2) j = 1)).card = 2 by decide] at h2
  norm_num [c237Batch] at h2

/-- A concrete case of C236 and of `c237_partial`: a monovalent ion in two parts. -/
example : Spec.Parts (![0, 1, 1] : Fin 3 → Fin 2) ∧
    ∀ j j', (![1, 1] : Fin 2 → ℕ) ((![0, 1, 1] : Fin 3 → Fin 2) j) = 2 → (![0, 1, 1] : Fin 3 → Fin 2) j = ![0, 1, 1] j' → j = j' :=
  ⟨parts_demo, by decide⟩

end WTM
