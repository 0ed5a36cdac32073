import Verif.Lemmas.Tank
import Verif.Props.IexChecks

/-! C220: where exact runs of the batch ion exchange models end up. -/
set_option autoImplicit false
namespace WTM
open BigOperators Set Topology Filter

variable {r p : ℕ}

/-! ### Each ion as a tank -/

/-- What the models take for the loadings at a bead point. -/
noncomputable def BatchModel.load (m : BatchModel) (P : BatchParams r p) (x : Fin (p + 1) → ℝ) : Fin (p + 1) → ℝ :=
  match m with
  | .hsdm => x
  | .psdm => fun i => x i / (1 - P.EPOR)

/-- Pore diffusion over the squared radius. -/
noncomputable def BatchModel.pore (m : BatchModel) (P : BatchParams r p) : ℝ :=
  match m with
  | .hsdm => 0
  | .psdm => P.EPOR * (P.Dp - P.Ds) / P.rb ^ 2

/-- The bead points at which a model evaluates the equilibrium: the homogeneous model only at the surface. -/
def BatchModel.Uses (m : BatchModel) (k : Fin (r + 1)) : Prop :=
  match m with
  | .hsdm => k = Fin.last r
  | .psdm => True

/-- The loadings and the water of one ion. -/
def ionPart (u : BatchState r p) (i : Fin (p + 1)) : (Fin (r + 1) → ℝ) × ℝ := (fun k => u k.succ i, u 0 i)

/-- The rates of one ion, with `κ` its equilibrium concentration. -/
noncomputable def ionRhs (m : BatchModel) (P : BatchParams r p) (κ : ℝ → ℝ) :
    (Fin (r + 1) → ℝ) × ℝ → (Fin (r + 1) → ℝ) × ℝ :=
  tankRhs κ (m.pore P) (P.Ds / P.rb ^ 2) (P.kL / P.rb) (3 * P.VR / P.VL) P.Br P.Wr

theorem field_tank (m : BatchModel) (P : BatchParams r p) (u : BatchState r p) (i : Fin (p + 1)) {κ : ℝ → ℝ}
    (h : ∀ k : Fin (r + 1), m.Uses k → ceqB P.K P.val (m.load P (u k.succ)) (∑ i, P.C0 i) i = κ (u k.succ i)) :
    ionPart (m.field P u) i = ionRhs m P κ (ionPart u i) := by
  cases m
  · have h1 : ceqB P.K P.val (u (Fin.last (r + 1))) (∑ i, P.C0 i) i = κ (u (Fin.last r).succ i) := h (Fin.last r) rfl
    refine Prod.ext (funext fun k => ?_) ?_
    · unfold ionRhs tankRhs ionPart BatchModel.field batchAssemble
      simp only [Fin.cases_succ, BatchModel.pore, tankPsi, zero_mul, zero_add, h1]
      have e : ∀ k : Fin (r + 1), ∑ l, P.Br k l * (P.Ds / P.rb ^ 2 * u l.succ i) = P.Ds / P.rb ^ 2 * ∑ l, P.Br k l * u l.succ i := by
        intro k
        rw [Finset.mul_sum]
        exact Finset.sum_congr rfl fun l _ => by ring
      simp only [e]
      split
      · congr 2
        ring
      · rfl
    · show 3 * P.VR / P.rb * _ / P.VL = _
      simp only [ionRhs, tankRhs, ionPart, h1]
      ring
  · have h1 : ∀ k : Fin (r + 1), ceqB P.K P.val (fun i => u k.succ i / (1 - P.EPOR)) (∑ i, P.C0 i) i = κ (u k.succ i) :=
      fun k => h k trivial
    refine Prod.ext (funext fun k => ?_) ?_
    · unfold ionRhs tankRhs ionPart BatchModel.field batchAssemble
      simp only [Fin.cases_succ, BatchModel.pore, tankPsi, h1]
      have e : ∀ k : Fin (r + 1), ∑ l, P.Br k l * (P.EPOR * (P.Dp - P.Ds) / P.rb ^ 2 * κ (u l.succ i) + P.Ds / P.rb ^ 2 * u l.succ i) =
          (P.EPOR * (P.Dp - P.Ds) * (∑ l, P.Br k l * κ (u l.succ i)) + P.Ds * ∑ l, P.Br k l * u l.succ i) / P.rb ^ 2 := by
        intro k
        rw [Finset.mul_sum, Finset.mul_sum, ← Finset.sum_add_distrib, Finset.sum_div]
        exact Finset.sum_congr rfl fun l _ => by ring
      simp only [e]
      split
      · congr 2
        ring
      · rfl
    · show 3 * P.VR / P.rb * _ / P.VL = _
      simp only [ionRhs, tankRhs, ionPart, h1]
      ring

/-- A contactor of physical size, with the operators of the code; pore diffusion is at least as fast as surface diffusion. -/
structure Spec.Contactor (P : BatchParams r p) (jac : Fin r → ℝ) : Prop where
  grid : Spec.BeadGrid jac P.Br P.Wr
  resin : 0 < P.RHOP * P.Qm
  por : 0 ≤ P.EPOR ∧ P.EPOR < 1
  vol : 0 < P.VR ∧ 0 < P.VL
  diff : 0 < P.Ds ∧ P.Ds ≤ P.Dp
  film : 0 < P.kL ∧ 0 < P.rb
  conc : ∀ i, 0 ≤ P.C0 i
  total : 0 < ∑ i, P.C0 i
  mono : ∀ i, P.val i = 1

section
variable {P : BatchParams r p} {jac : Fin r → ℝ}

theorem Spec.Contactor.pore (h : Spec.Contactor P jac) (m : BatchModel) : 0 ≤ m.pore P := by
  cases m
  · exact le_rfl
  · exact div_nonneg (mul_nonneg h.por.1 (sub_nonneg.2 h.diff.2)) (sq_nonneg _)

theorem Spec.Contactor.beta (h : Spec.Contactor P jac) : 0 < P.Ds / P.rb ^ 2 := div_pos h.diff.1 (pow_pos h.film.2 2)
theorem Spec.Contactor.f (h : Spec.Contactor P jac) : 0 < P.kL / P.rb := div_pos h.film.1 h.film.2
theorem Spec.Contactor.mu (h : Spec.Contactor P jac) : 0 < 3 * P.VR / P.VL :=
  div_pos (mul_pos (by norm_num) h.vol.1) h.vol.2
theorem Spec.Contactor.nodv (h : Spec.Contactor P jac) : ¬ ∃ i, P.val i = 2 := by
  rintro ⟨i, hi⟩
  rw [h.mono i] at hi
  cases hi

theorem Spec.Contactor.third (h : Spec.Contactor P jac) : ∑ k, P.Wr k = 1 / 3 := by
  rw [h.grid.weights]
  exact (c17_positive_sum (Nat.succ_pos r) (radialNodes_inj h.grid.zeros.1 (fun i => (h.grid.zeros.2.1 i).2))
    (radialNodes_pos (fun i => (h.grid.zeros.2.1 i).1)) (by norm_num : (0:ℝ) < 3)).2

/-- The rates exist everywhere. -/
theorem mono_rhs (h : ¬ ∃ i, P.val i = 2) (m : BatchModel) (u : BatchState r p) : m.rhs P u = some (m.field P u) := by
  refine rhs_field m P ?_
  cases m
  · exact fun hd => absurd hd h
  · exact fun _ hd => absurd hd h

/-- A run for all time. -/
def BatchModel.RunsOn (m : BatchModel) (P : BatchParams r p) (y : ℝ → BatchState r p) : Prop := ∀ T, m.Runs P 0 T y

theorem runsOn_field {m : BatchModel} {y : ℝ → BatchState r p} (h : m.RunsOn P y) :
    ∀ t ≥ 0, HasDerivWithinAt y (m.field P (y t)) (Ici 0) t := by
  intro t ht
  refine (runs_field (h (t + 1)) t ⟨ht, by linarith⟩).mono_of_mem_nhdsWithin ?_
  have : Icc 0 (t + 1) = Ici 0 ∩ Iic (t + 1) := (Ici_inter_Iic).symm
  rw [this]
  exact inter_mem_nhdsWithin _ (Iic_mem_nhds (by linarith))

theorem ionPart_deriv {y : ℝ → BatchState r p} {d : BatchState r p} {S : Set ℝ} {t : ℝ} (h : HasDerivWithinAt y d S t)
    (i : Fin (p + 1)) : HasDerivWithinAt (fun t => ionPart (y t) i) (ionPart d i) S t := by
  have h1 : ∀ a, HasDerivWithinAt (fun t => y t a i) (d a i) S t := fun a =>
    hasDerivWithinAt_pi.1 (hasDerivWithinAt_pi.1 h a) i
  exact (hasDerivWithinAt_pi.2 fun k => h1 (Fin.succ k)).prodMk (h1 0)

/-! ### Equal selectivities -/

theorem tankRhs_sum {ι : Type} (S : Finset ι) (a α β f μ : ℝ) (B : Fin (r + 1) → Fin (r + 1) → ℝ) (W : Fin (r + 1) → ℝ)
    (v : ι → (Fin (r + 1) → ℝ) × ℝ) : ∑ i ∈ S, tankRhs (fun q => a * q) α β f μ B W (v i) =
      tankRhs (fun q => a * q) α β f μ B W (∑ i ∈ S, v i) := by
  have e1 : ∀ k, (∑ i ∈ S, v i).1 k = ∑ i ∈ S, (v i).1 k := fun k => by rw [Prod.fst_sum, Finset.sum_apply]
  have e2 : (∑ i ∈ S, v i).2 = ∑ i ∈ S, (v i).2 := Prod.snd_sum
  have e3 : ∀ k, ∑ i ∈ S, ∑ l, B k l * tankPsi (fun q => a * q) α β ((v i).1 l) =
      ∑ l, B k l * tankPsi (fun q => a * q) α β (∑ i ∈ S, (v i).1 l) := by
    intro k
    rw [Finset.sum_comm]
    refine Finset.sum_congr rfl fun l _ => ?_
    simp only [tankPsi]
    rw [← Finset.mul_sum, Finset.sum_add_distrib, ← Finset.mul_sum, ← Finset.mul_sum, ← Finset.mul_sum]
  have e4 : ∑ i ∈ S, f * ((v i).2 - a * (v i).1 (Fin.last r)) = f * (∑ i ∈ S, (v i).2 - a * ∑ i ∈ S, (v i).1 (Fin.last r)) := by
    rw [← Finset.mul_sum, Finset.sum_sub_distrib, ← Finset.mul_sum]
  refine Prod.ext (funext fun k => ?_) ?_
  · rw [Prod.fst_sum, Finset.sum_apply]
    simp only [tankRhs, e1, e2]
    by_cases hk : k = Fin.last r
    · simp only [if_pos hk]
      rw [← Finset.sum_div, Finset.sum_sub_distrib, e4, Finset.sum_comm]
      simp only [← Finset.mul_sum, e3]
    · simp only [if_neg hk]
      exact e3 k
  · rw [Prod.snd_sum]
    simp only [tankRhs, e1, e2]
    rw [Finset.sum_neg_distrib, ← Finset.mul_sum, e4]

theorem lineIso_linear {a : ℝ} (ha : 0 < a) : LineIso (fun q => a * q) (fun c => c / a) where
  lip := by
    have : ContDiff ℝ 1 fun q : ℝ => a * q := by fun_prop
    exact this.locallyLipschitz
  cqs := by fun_prop
  zero := mul_zero a
  mono := fun _ _ h => mul_lt_mul_of_pos_left h ha
  inv := fun c => mul_div_cancel₀ c ha.ne'

theorem load_total (m : BatchModel) (hE : P.EPOR < 1) (x : Fin (p + 1) → ℝ) :
    ∃ s, 0 < s ∧ m.load P x = fun i => x i / s := by
  cases m
  · exact ⟨1, one_pos, by funext i; exact (div_one _).symm⟩
  · exact ⟨1 - P.EPOR, sub_pos.2 hE, rfl⟩

theorem ceqB_equal (h : Spec.Contactor P jac) (hK : ∀ i, P.K i = 1) (m : BatchModel) {x : Fin (p + 1) → ℝ} {Q CT : ℝ}
    (hQ : ∑ i, x i = Q) (i : Fin (p + 1)) : ceqB P.K P.val (m.load P x) CT i = CT / Q * x i := by
  obtain ⟨s, hs, e⟩ := load_total m h.por.2 x
  rw [e]
  unfold ceqB
  rw [if_neg h.nodv]
  unfold ceqMv alphaMat
  simp only [hK, div_one, one_mul]
  rw [← Finset.sum_div, hQ]
  have := hs.ne'
  by_cases hQ0 : Q = 0
  · simp [hQ0]
  · field_simp

theorem regular_equal (h : Spec.Contactor P jac) (hK : ∀ i, P.K i = 1) (m : BatchModel) {u : BatchState r p} {Q : ℝ} (hQ : 0 < Q)
    (hu : ∀ k : Fin (r + 1), ∑ i, u k.succ i = Q) : m.Regular P u := by
  have hv := h.nodv
  cases m
  · show Spec.EqRegularB _ _ _ _
    unfold Spec.EqRegularB
    rw [if_neg hv]
    intro i
    simp only [hK, div_one, one_mul]
    have := hu (Fin.last r)
    rw [Fin.succ_last] at this
    rw [this]
    exact hQ.ne'
  · intro k
    unfold Spec.EqRegularB
    rw [if_neg hv]
    intro i
    simp only [hK, div_one, one_mul]
    rw [← Finset.sum_div, hu]
    exact (div_pos hQ (sub_pos.2 h.por.2)).ne'

/-- Without selectivity every ion runs for itself. -/
theorem equal_run (h : Spec.Contactor P jac) (hK : ∀ i, P.K i = 1) (m : BatchModel) {u : BatchState r p} {Q : ℝ} (hQ : 0 < Q)
    (hC : ∑ i, u 0 i = ∑ i, P.C0 i) (hu : ∀ k : Fin (r + 1), ∑ i, u k.succ i = Q) :
    ∃ y, y 0 = u ∧ m.RunsOn P y ∧ (∀ T y', m.Runs P 0 T y' → y' 0 = u → ∀ t ∈ Icc 0 T, y' t = y t) ∧
      ∀ i, ∀ t ≥ 0, HasDerivWithinAt (fun t => ionPart (y t) i)
        (ionRhs m P (fun q => (∑ i, P.C0 i) / Q * q) (ionPart (y t) i)) (Ici 0) t ∧ ∑ i, y t 0 i = ∑ i, P.C0 i := by
  have hCT := h.total
  set CT := ∑ i, P.C0 i with hCTd
  have ha : 0 < CT / Q := div_pos hCT hQ
  have hiso := lineIso_linear ha
  have hex := fun i => line_global h.grid hiso (h.pore m) h.beta h.f h.mu (ionPart u i)
  choose w hw0 hw using hex
  let y : ℝ → BatchState r p := fun t a i => Fin.cases (w i t).2 (fun k => (w i t).1 k) a
  have hpart : ∀ t i, ionPart (y t) i = w i t := fun t i => rfl
  have hy0 : y 0 = u := by
    funext a i
    have := hw0 i
    induction a using Fin.cases with
    | zero => show (w i 0).2 = _; rw [this]; rfl
    | succ k => show (w i 0).1 k = _; rw [this]; rfl
  -- totals
  have hst : ∀ t ≥ 0, ∑ i, w i t = (fun _ => Q, CT) := by
    intro t ht
    refine unique_auto (F := ionRhs m P fun q => CT / Q * q) (a := 0) (b := t) (y1 := fun t => ∑ i, w i t)
      (y2 := fun _ => (fun _ => Q, CT)) (line_lip hiso _ _) (fun s hs => ?_) (fun s hs => ?_) ?_ t ⟨ht, le_rfl⟩
    · have h1 := HasDerivWithinAt.fun_sum (u := Finset.univ) fun i _ => (hw i s hs.1).mono (Icc_subset_Ici_self : Icc 0 t ⊆ Ici 0)
      rw [tankRhs_sum] at h1
      exact h1
    · have : ionRhs m P (fun q => CT / Q * q) (fun _ => Q, CT) = 0 := by
        have e : ∀ k, ∑ l, P.Br k l * tankPsi (fun q => CT / Q * q) (m.pore P) (P.Ds / P.rb ^ 2) Q = 0 := by
          intro k
          rw [← Finset.sum_mul, h.grid.rows, zero_mul]
        refine Prod.ext (funext fun k => ?_) ?_
        · simp only [ionRhs, tankRhs, e]
          rw [div_mul_cancel₀ CT hQ.ne']
          simp
        · simp only [ionRhs, tankRhs]
          rw [div_mul_cancel₀ CT hQ.ne']
          simp
      rw [this]
      exact hasDerivWithinAt_const _ _ _
    · refine Prod.ext (funext fun k => ?_) ?_
      · simp only [hw0]
        rw [Prod.fst_sum, Finset.sum_apply]
        exact hu k
      · simp only [hw0]
        rw [Prod.snd_sum]
        exact hC
  have htot : ∀ t ≥ 0, ∀ k : Fin (r + 1), ∑ i, y t k.succ i = Q := by
    intro t ht k
    have := congrFun (congrArg Prod.fst (hst t ht)) k
    rw [Prod.fst_sum, Finset.sum_apply] at this
    exact this
  have hfield : ∀ t ≥ 0, ∀ i, ionPart (m.field P (y t)) i = ionRhs m P (fun q => CT / Q * q) (w i t) := by
    intro t ht i
    rw [← hpart]
    exact field_tank m P (y t) i fun k _ => ceqB_equal h hK m (htot t ht k) i
  have hrun : m.RunsOn P y := by
    intro T t ht
    refine ⟨m.field P (y t), mono_rhs h.nodv m _, fun a i => ?_⟩
    obtain ⟨h1, h2⟩ := tank_parts ((hw i t ht.1).mono (Icc_subset_Ici_self : Icc 0 T ⊆ Ici 0))
    have h3 := hfield t ht.1 i
    induction a using Fin.cases with
    | zero =>
      have h4 : m.field P (y t) 0 i = (ionRhs m P (fun q => CT / Q * q) (w i t)).2 := congrArg Prod.snd h3
      rw [h4]
      exact h2
    | succ k =>
      have h4 : m.field P (y t) k.succ i = (ionRhs m P (fun q => CT / Q * q) (w i t)).1 k := congrFun (congrArg Prod.fst h3) k
      rw [h4]
      exact h1 k
  refine ⟨y, hy0, hrun, fun T y' hy' h0 t ht => ?_, fun i t ht => ?_⟩
  · exact (c209_batch_unique m P (hrun T) hy' (hy0.trans h0.symm)
      (fun s hs => regular_equal h hK m hQ (htot s hs.1)) t ht).symm
  · refine ⟨hw i t ht, ?_⟩
    have := congrArg Prod.snd (hst t ht)
    rw [Prod.snd_sum] at this
    exact this

/-- C220. Without selectivity among the monovalent ions, from every state with the right totals, a contactor has an exact run
for all time, and no other; the water tends to the total concentration times the share of the ion in the contents of the
vessel, and every bead point to the capacity times that share. -/
theorem c220_equal (h : Spec.Contactor P jac) (hK : ∀ i, P.K i = 1) (m : BatchModel) {u : BatchState r p} {Q : ℝ} (hQ : 0 < Q)
    (hC : ∑ i, u 0 i = ∑ i, P.C0 i) (hu : ∀ k : Fin (r + 1), ∑ i, u k.succ i = Q) :
    ∃ y, y 0 = u ∧ m.RunsOn P y ∧ (∀ T y', m.Runs P 0 T y' → y' 0 = u → ∀ t ∈ Icc 0 T, y' t = y t) ∧
      ∀ i, Tendsto (fun t => y t 0 i) atTop (𝓝 ((∑ j, P.C0 j) * (batchAmount P u i / ∑ j, batchAmount P u j))) ∧
        ∀ k : Fin (r + 1), Tendsto (fun t => y t k.succ i) atTop (𝓝 (Q * (batchAmount P u i / ∑ j, batchAmount P u j))) := by
  obtain ⟨y, hy0, hrun, huniq, hw'⟩ := equal_run h hK m hQ hC hu
  have hw := fun i t ht => (hw' i t ht).1
  refine ⟨y, hy0, hrun, huniq, fun i => ?_⟩
  have hw0 : ∀ i, ionPart (y 0) i = ionPart u i := fun i => by rw [hy0]
  have hCT := h.total
  set CT := ∑ i, P.C0 i with hCTd
  have hiso := lineIso_linear (div_pos hCT hQ)
  · obtain ⟨hVR, hVL⟩ := h.vol
    have hsum : ∑ j, batchAmount P u j = P.VL * CT + P.VR * Q := by
      unfold batchAmount
      rw [Finset.sum_add_distrib, ← Finset.mul_sum, hC, ← Finset.mul_sum, Finset.sum_comm]
      simp only [← Finset.mul_sum, hu]
      rw [← Finset.sum_mul, h.third]
      ring
    have hS : 0 < P.VL * CT + P.VR * Q := by positivity
    have hlim := line_limit h.grid hiso (h.pore m) h.beta h.f h.mu (hw i)
      (q := Q * (batchAmount P u i / ∑ j, batchAmount P u j)) (by
        rw [hsum, h.third, hw0]
        simp only [tankM, ionPart, batchAmount]
        field_simp
        ring)
    have e : CT / Q * (Q * (batchAmount P u i / ∑ j, batchAmount P u j)) = CT * (batchAmount P u i / ∑ j, batchAmount P u j) := by
      have := hQ.ne'
      field_simp
    rw [e] at hlim
    refine ⟨(continuous_snd.tendsto _).comp hlim, fun k => ?_⟩
    exact ((continuous_apply k).tendsto _).comp ((continuous_fst.tendsto _).comp hlim)

theorem batchInit_amount (h : Spec.Contactor P jac) (i : Fin (p + 1)) :
    batchAmount P (batchInit P) i = P.VL * P.C0 i + if i = 0 then P.VR * (P.RHOP * P.Qm) else 0 := by
  have e : ∀ k : Fin (r + 1), batchInit P k.succ i = if i = 0 then P.RHOP * P.Qm else 0 := by
    intro k
    simp only [batchInit, Fin.succ_ne_zero, if_false, if_neg h.nodv]
  have e0 : batchInit P 0 i = P.C0 i := by simp [batchInit]
  unfold batchAmount
  simp only [e, e0]
  rw [← Finset.sum_mul, h.third]
  split <;> ring

theorem batchInit_totals (h : Spec.Contactor P jac) : ∑ i, batchInit P 0 i = ∑ i, P.C0 i ∧
    ∀ k : Fin (r + 1), ∑ i, batchInit P k.succ i = P.RHOP * P.Qm := by
  have h3 := c33_batch P (by rw [h.mono 0]; decide)
  exact ⟨Finset.sum_congr rfl fun i _ => h3.2 i, h3.1⟩

/-- C220. From the start of the code, without selectivity: the presaturant ends up with the resin's share, every other ion with
the share of the water. -/
theorem c220_start (h : Spec.Contactor P jac) (hK : ∀ i, P.K i = 1) (m : BatchModel) :
    ∃ y, y 0 = batchInit P ∧ m.RunsOn P y ∧ (∀ T y', m.Runs P 0 T y' → y' 0 = batchInit P → ∀ t ∈ Icc 0 T, y' t = y t) ∧
      ∀ i, Tendsto (fun t => y t 0 i) atTop (𝓝 ((∑ j, P.C0 j) *
          ((P.VL * P.C0 i + if i = 0 then P.VR * (P.RHOP * P.Qm) else 0) / (P.VL * ∑ j, P.C0 j + P.VR * (P.RHOP * P.Qm))))) ∧
        ∀ k : Fin (r + 1), Tendsto (fun t => y t k.succ i) atTop (𝓝 (P.RHOP * P.Qm *
          ((P.VL * P.C0 i + if i = 0 then P.VR * (P.RHOP * P.Qm) else 0) / (P.VL * ∑ j, P.C0 j + P.VR * (P.RHOP * P.Qm))))) := by
  have ht := batchInit_totals h
  have := c220_equal h hK m h.resin ht.1 ht.2
  simp only [batchInit_amount h] at this
  rw [Finset.sum_add_distrib, ← Finset.mul_sum, Finset.sum_ite_eq' Finset.univ (0 : Fin (p + 1))] at this
  simpa using this

end

/-! ### Two ions -/

/-- The nearest point of an interval. -/
noncomputable def clampTo (a b x : ℝ) : ℝ := max a (min b x)

/-- An interval around the loadings from 0 to the capacity on which the equilibrium of two ions is regular. -/
structure Spec.Range (k Q a b : ℝ) : Prop where
  low : a ≤ 0
  high : Q ≤ b
  lowReg : 0 < k * (Q - a) + a
  highReg : 0 < k * (Q - b) + b

/-- Equilibrium concentration of the ion that is not the presaturant, continued by straight lines outside an interval. -/
noncomputable def binK (k Q CT a b x : ℝ) : ℝ := x * (CT / (k * (Q - clampTo a b x) + clampTo a b x))

section
variable {k Q CT a b : ℝ}

theorem range_reg (h : Spec.Range k Q a b) {x : ℝ} (ha : a ≤ x) (hb : x ≤ b) : 0 < k * (Q - x) + x := by
  have h1 := h.lowReg
  have h2 := h.highReg
  rcases le_total k 1 with hk | hk
  · have := mul_nonneg (sub_nonneg.2 hk) (sub_nonneg.2 ha)
    nlinarith
  · have := mul_nonneg (sub_nonneg.2 hk) (sub_nonneg.2 hb)
    nlinarith

theorem range_le (h : Spec.Range k Q a b) (hQ : 0 < Q) : a < b := by linarith [h.low, h.high]

theorem clamp_mem (h : Spec.Range k Q a b) (hQ : 0 < Q) (x : ℝ) : a ≤ clampTo a b x ∧ clampTo a b x ≤ b :=
  ⟨le_max_left _ _, max_le (range_le h hQ).le (min_le_left _ _)⟩

theorem binD_pos (h : Spec.Range k Q a b) (hQ : 0 < Q) (x : ℝ) : 0 < k * (Q - clampTo a b x) + clampTo a b x :=
  range_reg h (clamp_mem h hQ x).1 (clamp_mem h hQ x).2

theorem clamp_low (hab : a ≤ b) {x : ℝ} (hx : x ≤ a) : clampTo a b x = a := by
  unfold clampTo; rw [min_eq_right (by linarith), max_eq_left hx]

theorem clamp_mid {x : ℝ} (hx : a ≤ x) (hx' : x ≤ b) : clampTo a b x = x := by
  unfold clampTo; rw [min_eq_right hx', max_eq_right hx]

theorem clamp_high (hab : a ≤ b) {x : ℝ} (hx : b ≤ x) : clampTo a b x = b := by
  unfold clampTo; rw [min_eq_left hx, max_eq_right hab]

theorem binK_mid {x : ℝ} (hx : a ≤ x) (hx' : x ≤ b) : binK k Q CT a b x = x * (CT / (k * (Q - x) + x)) := by
  unfold binK; rw [clamp_mid hx hx']

theorem binK_iso (h : Spec.Range k Q a b) (hk : 0 < k) (hQ : 0 < Q) (hC : 0 < CT) : ∃ qs, LineIso (binK k Q CT a b) qs := by
  have hab := range_le h hQ
  have hA := h.lowReg
  have hB := h.highReg
  have hkQ := mul_pos hk hQ
  have hmono : StrictMono (binK k Q CT a b) := by
    intro x y hxy
    have hx := binD_pos h hQ x
    have hy := binD_pos h hQ y
    unfold binK
    rw [← mul_div_assoc, ← mul_div_assoc, div_lt_div_iff₀ hx hy]
    suffices 0 < k * Q * (y - x) + (1 - k) * (y * clampTo a b x - x * clampTo a b y) by nlinarith
    rcases le_total x a with h1 | h1
    · rw [clamp_low hab.le h1]
      rcases le_total y a with h2 | h2
      · rw [clamp_low hab.le h2]
        have := mul_pos hA (sub_pos.2 hxy)
        nlinarith
      · rcases le_total y b with h3 | h3
        · rw [clamp_mid h2 h3]
          have e : k * Q * (y - x) + (1 - k) * (y * a - x * y) = (a - x) * (k * (Q - y) + y) + k * Q * (y - a) := by ring
          rw [e]
          have hD := range_reg h h2 h3
          rcases h1.eq_or_lt with h4 | h4
          · have := mul_pos hkQ (by linarith : 0 < y - a)
            rw [h4, sub_self, zero_mul, zero_add]
            exact this
          · have := mul_pos (sub_pos.2 h4) hD
            have := mul_nonneg hkQ.le (sub_nonneg.2 h2)
            linarith
        · rw [clamp_high hab.le h3]
          have e : k * Q * (y - x) + (1 - k) * (y * a - x * b) =
              (y - b) * (k * (Q - a) + a) + (a - x) * (k * (Q - b) + b) + k * Q * (b - a) := by ring
          rw [e]
          have := mul_nonneg (sub_nonneg.2 h3) hA.le
          have := mul_nonneg (sub_nonneg.2 h1) hB.le
          have := mul_pos hkQ (sub_pos.2 hab)
          linarith
    · rcases le_total b x with h2 | h2
      · rw [clamp_high hab.le h2, clamp_high hab.le (h2.trans hxy.le)]
        have := mul_pos hB (sub_pos.2 hxy)
        nlinarith
      · rw [clamp_mid h1 h2]
        rcases le_total b y with h3 | h3
        · rw [clamp_high hab.le h3]
          have e : k * Q * (y - x) + (1 - k) * (y * x - x * b) = (y - b) * (k * (Q - x) + x) + k * Q * (b - x) := by ring
          rw [e]
          have hD := range_reg h h1 h2
          rcases h2.eq_or_lt with h4 | h4
          · rw [h4] at hD hxy ⊢
            have := mul_pos (sub_pos.2 hxy) hD
            rw [sub_self, mul_zero, add_zero]
            exact this
          · have := mul_nonneg (sub_nonneg.2 h3) hD.le
            have := mul_pos hkQ (sub_pos.2 h4)
            linarith
        · rw [clamp_mid (h1.trans hxy.le) h3]
          have := mul_pos hkQ (sub_pos.2 hxy)
          nlinarith
  have hlip : LocallyLipschitz (binK k Q CT a b) := by
    have hcl : LocallyLipschitz (clampTo a b) := by
      unfold clampTo
      exact (LocallyLipschitz.id.const_min b).const_max a
    refine lip_mul LocallyLipschitz.id fun x => ?_
    have h1 : ContDiffAt ℝ 1 (fun z : ℝ => CT / (k * (Q - z) + z)) (clampTo a b x) :=
      contDiffAt_const.div (by fun_prop) (binD_pos h hQ x).ne'
    obtain ⟨K1, t1, ht1, hK1⟩ := h1.exists_lipschitzOnWith
    obtain ⟨K2, t2, ht2, hK2⟩ := hcl x
    refine ⟨K1 * K2, t2 ∩ clampTo a b ⁻¹' t1, inter_mem ht2 (hcl.continuous.continuousAt ht1), ?_⟩
    exact hK1.comp (hK2.mono inter_subset_left) (fun z hz => hz.2)
  have hsurj : Function.Surjective (binK k Q CT a b) := by
    intro c
    have ea : binK k Q CT a b a = a * CT / (k * (Q - a) + a) := by rw [binK_mid le_rfl hab.le, mul_div_assoc]
    have eb : binK k Q CT a b b = b * CT / (k * (Q - b) + b) := by rw [binK_mid hab.le le_rfl, mul_div_assoc]
    rcases le_total c (binK k Q CT a b a) with h1 | h1
    · refine ⟨c * (k * (Q - a) + a) / CT, ?_⟩
      have : c * (k * (Q - a) + a) / CT ≤ a := by
        rw [ea, le_div_iff₀ hA] at h1
        rw [div_le_iff₀ hC]
        exact h1
      unfold binK
      rw [clamp_low hab.le this]
      field_simp
    · rcases le_total (binK k Q CT a b b) c with h2 | h2
      · refine ⟨c * (k * (Q - b) + b) / CT, ?_⟩
        have : b ≤ c * (k * (Q - b) + b) / CT := by
          rw [eb, div_le_iff₀ hB] at h2
          rw [le_div_iff₀ hC]
          exact h2
        unfold binK
        rw [clamp_high hab.le this]
        field_simp
      · obtain ⟨x, -, hx⟩ := intermediate_value_Icc hab.le hlip.continuous.continuousOn ⟨h1, h2⟩
        exact ⟨x, hx⟩
  let e := hmono.orderIsoOfSurjective _ hsurj
  refine ⟨e.symm, hlip, e.symm.continuous, ?_, hmono, fun c => e.apply_symm_apply c⟩
  unfold binK
  exact zero_mul _

theorem binK_full (h : Spec.Range k Q a b) (hQ : 0 < Q) : binK k Q CT a b Q = CT := by
  rw [binK_mid (h.low.trans hQ.le) h.high, sub_self, mul_zero, zero_add, mul_div_cancel₀ _ hQ.ne']

theorem range_plain (hk : 0 < k) (hQ : 0 < Q) : Spec.Range k Q 0 Q :=
  ⟨le_rfl, le_rfl, by have := mul_pos hk hQ; linarith, by linarith⟩

end

/-- Specification: loadings `q` and concentrations `c` of two ions in equilibrium that hold what the vessel held at the start:
law of mass action, both totals, and the balance of the ion that came with the water. -/
structure Spec.Exchange (P : BatchParams r 1) (q c : Fin 2 → ℝ) : Prop where
  nonneg : ∀ i, 0 ≤ q i ∧ 0 ≤ c i
  law : P.K 1 * q 0 * c 1 = q 1 * c 0
  water : c 0 + c 1 = P.C0 0 + P.C0 1
  resin : q 0 + q 1 = P.RHOP * P.Qm
  balance : P.VL * c 1 + P.VR * q 1 = P.VL * P.C0 1

section
variable {P : BatchParams r 1} {jac : Fin r → ℝ} {a b : ℝ}

theorem exchange_bin (hR : Spec.Range (P.K 1) (P.RHOP * P.Qm) a b) {q c : Fin 2 → ℝ}
    (he : Spec.Exchange P q c) : c 1 = binK (P.K 1) (P.RHOP * P.Qm) (∑ i, P.C0 i) a b (q 1) := by
  have h0 : a ≤ q 1 := hR.low.trans (he.nonneg 1).1
  have h1 : q 1 ≤ b := by have := (he.nonneg 0).1; linarith [he.resin, hR.high]
  have h3 := range_reg hR h0 h1
  rw [binK_mid h0 h1, ← mul_div_assoc, eq_div_iff h3.ne']
  have e : ∑ i, P.C0 i = P.C0 0 + P.C0 1 := Fin.sum_univ_two _
  rw [e, ← he.water, ← he.resin]
  have := he.law
  linear_combination this

/-- C220. Two monovalent ions have exactly one equilibrium that holds what the vessel held. -/
theorem c220_exchange (h : Spec.Contactor P jac) (hk : 0 < P.K 1) : ∃! x : (Fin 2 → ℝ) × (Fin 2 → ℝ), Spec.Exchange P x.1 x.2 := by
  have eC : ∑ i, P.C0 i = P.C0 0 + P.C0 1 := Fin.sum_univ_two _
  have hR := range_plain hk h.resin
  obtain ⟨qs, hiso⟩ := binK_iso hR hk h.resin h.total
  obtain ⟨hVR, hVL⟩ := h.vol
  have hQ := h.resin
  have hκQ := binK_full (CT := ∑ i, P.C0 i) hR hQ
  have hbin := fun (q c : Fin 2 → ℝ) => exchange_bin (q := q) (c := c) hR
  set Q := P.RHOP * P.Qm with hQd
  set CT := ∑ i, P.C0 i with hCTd
  set κ := binK (P.K 1) Q CT 0 Q with hκ
  have hκ0 : κ 0 = 0 := hiso.zero
  have hcont : ContinuousOn (fun q => P.VL * κ q + P.VR * q) (Icc 0 Q) := by
    have := hiso.lip.continuous
    fun_prop
  have hc0 := h.conc 0
  have hc1 := h.conc 1
  have hmem : P.VL * P.C0 1 ∈ Icc (P.VL * κ 0 + P.VR * 0) (P.VL * κ Q + P.VR * Q) := by
    rw [hκ0, hκQ, eC]
    refine ⟨by rw [mul_zero, mul_zero, add_zero]; exact mul_nonneg hVL.le hc1, ?_⟩
    have := mul_nonneg hVL.le hc0
    have := mul_pos hVR hQ
    nlinarith
  obtain ⟨x, ⟨hx0, hx1⟩, hx⟩ := intermediate_value_Icc hQ.le hcont hmem
  have hx' : P.VL * κ x + P.VR * x = P.VL * P.C0 1 := hx
  have hD := range_reg hR hx0 hx1
  have hκx : κ x = x * (CT / (P.K 1 * (Q - x) + x)) := binK_mid hx0 hx1
  have hκx0 : 0 ≤ κ x := by rw [← hκ0]; exact hiso.mono.monotone hx0
  have hκx1 : κ x ≤ CT := by rw [← hκQ]; exact hiso.mono.monotone hx1
  refine ⟨(![Q - x, x], ![CT - κ x, κ x]), ⟨?_, ?_, ?_, ?_, hx'⟩, ?_⟩
  · intro i
    fin_cases i
    · exact ⟨sub_nonneg.2 hx1, sub_nonneg.2 hκx1⟩
    · exact ⟨hx0, hκx0⟩
  · show P.K 1 * (Q - x) * κ x = x * (CT - κ x)
    have h5 : κ x * (P.K 1 * (Q - x) + x) = x * CT := by
      rw [hκx]
      field_simp
    linear_combination h5
  · show CT - κ x + κ x = _
    rw [eC]; ring
  · show Q - x + x = _
    ring
  · rintro ⟨q, c⟩ he
    have h3 := hbin q c he
    have h4 : q 1 = x := by
      refine line_equilibrium (μ := P.VR / P.VL) hiso (div_pos hVR hVL) one_pos ?_
      have h5 := he.balance
      simp only at h5
      rw [h3] at h5
      have h6 : P.VL * κ (q 1) + P.VR * q 1 = P.VL * κ x + P.VR * x := by rw [hx']; exact h5
      field_simp
      linarith
    have h5 : c 1 = κ x := by rw [h3, h4]
    have h6 := he.water
    have h7 := he.resin
    simp only at h6 h7
    refine Prod.ext (funext fun i => ?_) (funext fun i => ?_)
    · fin_cases i
      · show q 0 = Q - x
        linarith
      · exact h4
    · fin_cases i
      · show c 0 = CT - κ x
        rw [eC]; linarith
      · exact h5

/-- The equilibrium concentrations of two ions at loadings in the interval. -/
theorem ceqB_binary (h : Spec.Contactor P jac) (hR : Spec.Range (P.K 1) (P.RHOP * P.Qm) a b) (hk0 : P.K 0 = 1) (hk : 0 < P.K 1)
    (m : BatchModel) {x : Fin 2 → ℝ} (hx1 : x 1 ∈ Icc a b) (hx : x 0 + x 1 = P.RHOP * P.Qm) (CT : ℝ) :
    ceqB P.K P.val (m.load P x) CT 1 = binK (P.K 1) (P.RHOP * P.Qm) CT a b (x 1) ∧
      ceqB P.K P.val (m.load P x) CT 0 = CT - binK (P.K 1) (P.RHOP * P.Qm) CT a b (P.RHOP * P.Qm - x 0) := by
  obtain ⟨s, hs, e⟩ := load_total m h.por.2 x
  have e' : x 0 + x 1 - x 1 = x 0 := by ring
  have e'' : x 0 + x 1 - x 0 = x 1 := by ring
  have hD : 0 < P.K 1 * x 0 + x 1 := by
    have := range_reg hR hx1.1 hx1.2
    rwa [← hx, e'] at this
  have hb : binK (P.K 1) (P.RHOP * P.Qm) CT a b (x 1) = x 1 * (CT / (P.K 1 * x 0 + x 1)) := by
    rw [binK_mid hx1.1 hx1.2, ← hx, e']
  have h1 := hk.ne'
  have h2 := hs.ne'
  have h3 := hD.ne'
  unfold ceqB
  rw [if_neg h.nodv, e, ← hx, e'', hx, hb]
  unfold ceqMv alphaMat
  constructor
  · rw [Fin.sum_univ_two, hk0]
    beta_reduce
    field_simp
  · rw [Fin.sum_univ_two, hk0]
    beta_reduce
    have e4 : 1 / 1 * (x 0 / s) + 1 / P.K 1 * (x 1 / s) = (P.K 1 * x 0 + x 1) / (P.K 1 * s) := by field_simp
    rw [e4, div_div_eq_mul_div, div_eq_iff h3, sub_mul, mul_assoc (x 1), div_mul_cancel₀ _ h3]
    field_simp
    ring

theorem regular_binary (h : Spec.Contactor P jac) (hR : Spec.Range (P.K 1) (P.RHOP * P.Qm) a b) (hk0 : P.K 0 = 1)
    (hk : 0 < P.K 1) (m : BatchModel) {u : BatchState r 1} (hx1 : ∀ k : Fin (r + 1), m.Uses k → u k.succ 1 ∈ Icc a b)
    (hx : ∀ k : Fin (r + 1), u k.succ 0 + u k.succ 1 = P.RHOP * P.Qm) : m.Regular P u := by
  have key : ∀ (k : Fin (r + 1)) (s : ℝ), m.Uses k → 0 < s → Spec.EqRegularB P.K P.val (fun i => u k.succ i / s) (∑ i, P.C0 i) := by
    intro k s hu hs
    unfold Spec.EqRegularB
    rw [if_neg h.nodv]
    intro i
    have hD : 0 < P.K 1 * u k.succ 0 + u k.succ 1 := by
      have := range_reg hR (hx1 k hu).1 (hx1 k hu).2
      rw [← hx k] at this
      linarith
    have hKi : 0 < P.K i := by
      fin_cases i
      · show 0 < P.K 0
        rw [hk0]; exact one_pos
      · exact hk
    rw [Fin.sum_univ_two, hk0]
    have e : P.K i / 1 * (u k.succ 0 / s) + P.K i / P.K 1 * (u k.succ 1 / s) =
        P.K i * (P.K 1 * u k.succ 0 + u k.succ 1) / (P.K 1 * s) := by
      have := hk.ne'
      field_simp
    rw [e]
    positivity
  cases m
  · have := key (Fin.last r) 1 rfl one_pos
    simp only [div_one] at this
    exact this
  · exact fun k => key k _ trivial (sub_pos.2 h.por.2)

/-- C220. An exact run of two monovalent ions from the start of the code, regular and with the loadings the rates use in an interval on which the
equilibrium is regular, tends to that equilibrium, in the water and at every bead point. -/
theorem c220_binary (h : Spec.Contactor P jac) (hk0 : P.K 0 = 1) (hk : 0 < P.K 1) (m : BatchModel) {y : ℝ → BatchState r 1}
    (h0 : y 0 = batchInit P) (hy : m.RunsOn P y) (hR : Spec.Range (P.K 1) (P.RHOP * P.Qm) a b)
    (hreg : ∀ t ≥ 0, m.Regular P (y t)) (hab : ∀ t ≥ 0, ∀ k : Fin (r + 1), m.Uses k → y t k.succ 1 ∈ Icc a b) {q c : Fin 2 → ℝ}
    (he : Spec.Exchange P q c) (i : Fin 2) :
    Tendsto (fun t => y t 0 i) atTop (𝓝 (c i)) ∧ ∀ k : Fin (r + 1), Tendsto (fun t => y t k.succ i) atTop (𝓝 (q i)) := by
  have eC : ∑ i, P.C0 i = P.C0 0 + P.C0 1 := Fin.sum_univ_two _
  obtain ⟨qs, hiso⟩ := binK_iso hR hk h.resin h.total
  obtain ⟨hVR, hVL⟩ := h.vol
  have e3 := exchange_bin hR he
  have hKpos : ∀ i, 0 < P.K i := by
    intro i
    fin_cases i
    · show 0 < P.K 0
      rw [hk0]; exact one_pos
    · exact hk
  have hin := batchInit_totals h
  have htot : ∀ t ≥ 0, ∑ i, y t 0 i = ∑ i, P.C0 i ∧ ∀ k : Fin (r + 1), ∑ i, y t k.succ i = P.RHOP * P.Qm := by
    intro t ht
    exact c217_batch_totals m P h.grid.rows (fun i => (hKpos i).ne') (h.mono 0) (fun i => Or.inl (h.mono i)) (hy t)
      (fun s hs => hreg s hs.1) (by rw [h0]; exact hin.1) (fun k => by rw [h0]; exact hin.2 k) ⟨ht, le_rfl⟩
  have hion : ∀ t ≥ 0, HasDerivWithinAt (fun t => ionPart (y t) 1) (ionRhs m P (binK (P.K 1) (P.RHOP * P.Qm) (∑ i, P.C0 i) a b)
      (ionPart (y t) 1)) (Ici 0) t := by
    intro t ht
    have h1 := ionPart_deriv (runsOn_field hy t ht) 1
    rw [field_tank m P (y t) 1 (κ := binK (P.K 1) (P.RHOP * P.Qm) (∑ i, P.C0 i) a b)] at h1
    · exact h1
    · intro k hu
      exact (ceqB_binary h hR hk0 hk m (hab t ht k hu) (by have := (htot t ht).2 k; rwa [Fin.sum_univ_two] at this) _).1
  have hlim := line_limit h.grid hiso (h.pore m) h.beta h.f h.mu hion (q := q 1) (by
    rw [h.third, ← e3, h0]
    have hb := he.balance
    have e : ∀ k : Fin (r + 1), batchInit P k.succ 1 = 0 := by
      intro k
      simp only [batchInit, Fin.succ_ne_zero, if_false, if_neg h.nodv]
      rfl
    have e0 : batchInit P 0 1 = P.C0 1 := by simp [batchInit]
    simp only [tankM, ionPart, e, e0]
    field_simp
    simp
    linarith)
  rw [← e3] at hlim
  have l1 : Tendsto (fun t => y t 0 1) atTop (𝓝 (c 1)) := (continuous_snd.tendsto _).comp hlim
  have l2 : ∀ k : Fin (r + 1), Tendsto (fun t => y t k.succ 1) atTop (𝓝 (q 1)) := fun k =>
    ((continuous_apply k).tendsto _).comp ((continuous_fst.tendsto _).comp hlim)
  fin_cases i
  · refine ⟨?_, fun k => ?_⟩
    · have e : c 0 = ∑ i, P.C0 i - c 1 := by rw [eC]; linarith [he.water]
      show Tendsto (fun t => y t 0 0) atTop (𝓝 (c 0))
      rw [e]
      refine (tendsto_const_nhds.sub l1).congr' ?_
      filter_upwards [eventually_ge_atTop 0] with t ht
      have := (htot t ht).1
      rw [Fin.sum_univ_two] at this
      linarith
    · have e : q 0 = P.RHOP * P.Qm - q 1 := by linarith [he.resin]
      show Tendsto (fun t => y t k.succ 0) atTop (𝓝 (q 0))
      rw [e]
      refine (tendsto_const_nhds.sub (l2 k)).congr' ?_
      filter_upwards [eventually_ge_atTop 0] with t ht
      have := (htot t ht).2 k
      rw [Fin.sum_univ_two] at this
      linarith
  · exact ⟨l1, l2⟩

/-- Specification: from the start of the code there is an exact run for all time, it is the only one, and it ends in
equilibrium. -/
def Spec.Settles (m : BatchModel) (P : BatchParams r 1) : Prop := ∃ y : ℝ → BatchState r 1, y 0 = batchInit P ∧ m.RunsOn P y ∧
  (∀ T y', m.Runs P 0 T y' → y' 0 = batchInit P → ∀ t ∈ Icc 0 T, y' t = y t) ∧ ∀ q c, Spec.Exchange P q c → ∀ i,
    Tendsto (fun t => y t 0 i) atTop (𝓝 (c i)) ∧ ∀ k : Fin (r + 1), Tendsto (fun t => y t k.succ i) atTop (𝓝 (q i))

/-- If the tank of the one ion stays in the interval, the contactor follows it. -/
theorem binary_make (h : Spec.Contactor P jac) (hR : Spec.Range (P.K 1) (P.RHOP * P.Qm) a b) (hk0 : P.K 0 = 1) (hk : 0 < P.K 1)
    (m : BatchModel) {w : ℝ → (Fin (r + 1) → ℝ) × ℝ} (hw0 : w 0 = ionPart (batchInit P) 1)
    (hw : ∀ t ≥ 0, HasDerivWithinAt w (ionRhs m P (binK (P.K 1) (P.RHOP * P.Qm) (∑ i, P.C0 i) a b) (w t)) (Ici 0) t)
    (hr : ∀ t ≥ 0, ∀ k, m.Uses k → (w t).1 k ∈ Icc a b) :
    ∃ y : ℝ → BatchState r 1, y 0 = batchInit P ∧ m.RunsOn P y ∧
      (∀ T y', m.Runs P 0 T y' → y' 0 = batchInit P → ∀ t ∈ Icc 0 T, y' t = y t) ∧ (∀ q c, Spec.Exchange P q c → ∀ i,
        Tendsto (fun t => y t 0 i) atTop (𝓝 (c i)) ∧ ∀ k : Fin (r + 1), Tendsto (fun t => y t k.succ i) atTop (𝓝 (q i))) ∧
      ∀ t, ionPart (y t) 1 = w t ∧ ionPart (y t) 0 = (fun k => P.RHOP * P.Qm - (w t).1 k, (∑ i, P.C0 i) - (w t).2) := by
  have hbin := fun (y : ℝ → BatchState r 1) => c220_binary h hk0 hk m (y := y) (a := a) (b := b)
  have hceq := fun (u : BatchState r 1) (k : Fin (r + 1)) => ceqB_binary h hR hk0 hk m (x := u k.succ)
  have hregb := fun (u : BatchState r 1) => regular_binary h hR hk0 hk m (u := u)
  have hin := batchInit_totals h
  set Q := P.RHOP * P.Qm with hQd
  set CT := ∑ i, P.C0 i with hCT
  let y : ℝ → BatchState r 1 := fun t a i =>
    Fin.cases (![CT - (w t).2, (w t).2] i) (fun k => ![Q - (w t).1 k, (w t).1 k] i) a
  have hsum : ∀ t (k : Fin (r + 1)), y t k.succ 0 + y t k.succ 1 = Q := by
    intro t k
    show Q - (w t).1 k + (w t).1 k = Q
    ring
  have hy0 : y 0 = batchInit P := by
    funext a i
    have e1 : ∀ a, batchInit P a 1 = Fin.cases (w 0).2 (fun k => (w 0).1 k) a := by
      intro a
      rw [hw0]
      induction a using Fin.cases with
      | zero => rfl
      | succ k => rfl
    induction a using Fin.cases with
    | zero =>
      have h1 : (w 0).2 = batchInit P 0 1 := (e1 0).symm
      have h2 := hin.1
      rw [Fin.sum_univ_two] at h2
      fin_cases i
      · show CT - (w 0).2 = batchInit P 0 0
        rw [h1]; linarith
      · exact h1
    | succ k =>
      have h1 : (w 0).1 k = batchInit P k.succ 1 := (e1 k.succ).symm
      have h2 := hin.2 k
      rw [Fin.sum_univ_two] at h2
      fin_cases i
      · show Q - (w 0).1 k = batchInit P k.succ 0
        rw [h1]; linarith
      · exact h1
  have hrun : m.RunsOn P y := by
    refine fun T t ht => ⟨m.field P (y t), mono_rhs h.nodv m _, fun a' i => ?_⟩
    obtain ⟨h1, h2⟩ := tank_parts ((hw t ht.1).mono (Icc_subset_Ici_self : Icc 0 T ⊆ Ici 0))
    have hc := fun (k : Fin (r + 1)) hu => hceq (y t) k (hr t ht.1 k hu) (hsum t k) CT
    have hf1 := field_tank m P (y t) 1 (κ := binK (P.K 1) Q CT a b) fun k hu => (hc k hu).1
    have hf0 := field_tank m P (y t) 0 (κ := fun x => CT - binK (P.K 1) Q CT a b (Q - x)) fun k hu => (hc k hu).2
    have hp1 : ionPart (y t) 1 = w t := rfl
    have hp0 : ionPart (y t) 0 = (fun k => Q - (w t).1 k, CT - (w t).2) := rfl
    have hneg : ionPart (m.field P (y t)) 0 = -ionPart (m.field P (y t)) 1 := by
      rw [hf0, hf1, hp0, hp1]
      generalize binK (P.K 1) Q CT a b = κ
      have eψ : ∀ k, ∑ l, P.Br k l * tankPsi (fun x => CT - κ (Q - x)) (m.pore P) (P.Ds / P.rb ^ 2) (Q - (w t).1 l) =
          -∑ l, P.Br k l * tankPsi κ (m.pore P) (P.Ds / P.rb ^ 2) ((w t).1 l) := by
        intro k
        have e : ∀ l, P.Br k l * tankPsi (fun x => CT - κ (Q - x)) (m.pore P) (P.Ds / P.rb ^ 2) (Q - (w t).1 l) =
            P.Br k l * (m.pore P * CT + P.Ds / P.rb ^ 2 * Q) - P.Br k l * tankPsi κ (m.pore P) (P.Ds / P.rb ^ 2) ((w t).1 l) := by
          intro l
          simp only [tankPsi, sub_sub_cancel]
          ring
        simp only [e]
        rw [Finset.sum_sub_distrib, ← Finset.sum_mul, h.grid.rows]
        ring
      refine Prod.ext (funext fun k => ?_) ?_
      · simp only [ionRhs, tankRhs, eψ, Prod.fst_neg, Pi.neg_apply, sub_sub_cancel]
        by_cases hk' : k = Fin.last r
        · simp only [if_pos hk', mul_neg, Finset.sum_neg_distrib]
          ring
        · simp only [if_neg hk']
      · simp only [ionRhs, tankRhs, Prod.snd_neg, sub_sub_cancel]
        ring
    rw [hf1, hp1] at hneg
    rw [hp1] at hf1
    have g1 : ∀ a, HasDerivWithinAt (fun t => y t a 1) (m.field P (y t) a 1) (Icc 0 T) t := by
      intro a
      induction a using Fin.cases with
      | zero =>
        have e : m.field P (y t) 0 1 = _ := congrArg Prod.snd hf1
        rw [e]; exact h2
      | succ k =>
        have e : m.field P (y t) k.succ 1 = _ := congrFun (congrArg Prod.fst hf1) k
        rw [e]; exact h1 k
    fin_cases i
    · show HasDerivWithinAt (fun t => y t a' 0) (m.field P (y t) a' 0) (Icc 0 T) t
      induction a' using Fin.cases with
      | zero =>
        have e : m.field P (y t) 0 0 = -(ionRhs m P (binK (P.K 1) Q CT a b) (w t)).2 := congrArg Prod.snd hneg
        rw [e]; exact h2.const_sub CT
      | succ k =>
        have e : m.field P (y t) k.succ 0 = -(ionRhs m P (binK (P.K 1) Q CT a b) (w t)).1 k :=
          congrFun (congrArg Prod.fst hneg) k
        rw [e]; exact (h1 k).const_sub Q
    · exact g1 a'
  have hreg : ∀ t ≥ 0, m.Regular P (y t) := fun t ht => hregb (y t) (fun k hu => hr t ht k hu) (hsum t)
  refine ⟨y, hy0, hrun, fun T y' hy' h0 t ht => ?_, fun q c he i => hbin y hy0 hrun hR hreg (fun t ht k hu => hr t ht k hu) he i,
    fun t => ⟨rfl, rfl⟩⟩
  exact (c209_batch_unique m P (hrun T) hy' (hy0.trans h0.symm) (fun s hs => hreg s hs.1) t ht).symm

/-- If the tank of the one ion stays in the interval, the contactor settles. -/
theorem binary_run (h : Spec.Contactor P jac) (hR : Spec.Range (P.K 1) (P.RHOP * P.Qm) a b) (hk0 : P.K 0 = 1) (hk : 0 < P.K 1)
    (m : BatchModel) {w : ℝ → (Fin (r + 1) → ℝ) × ℝ} (hw0 : w 0 = ionPart (batchInit P) 1)
    (hw : ∀ t ≥ 0, HasDerivWithinAt w (ionRhs m P (binK (P.K 1) (P.RHOP * P.Qm) (∑ i, P.C0 i) a b) (w t)) (Ici 0) t)
    (hr : ∀ t ≥ 0, ∀ k, m.Uses k → (w t).1 k ∈ Icc a b) : Spec.Settles m P := by
  obtain ⟨y, h1, h2, h3, h4, -⟩ := binary_make h hR hk0 hk m hw0 hw hr
  exact ⟨y, h1, h2, h3, h4⟩

theorem binary_start (h : Spec.Contactor P jac) : ionPart (batchInit P) 1 = ((fun _ => 0, P.C0 1) : (Fin (r + 1) → ℝ) × ℝ) := by
  refine Prod.ext (funext fun k => ?_) ?_
  · simp [ionPart, batchInit, h.nodv]
  · simp [ionPart, batchInit]

/-- C220. Two monovalent ions with little of the second in the water: if the amount of it is small against the resin, for the
weights of the bead points, the contactor settles, with any number of bead points and whatever undershoot happens. -/
theorem c220_dilute (h : Spec.Contactor P jac) (hk0 : P.K 0 = 1) (hk : 0 < P.K 1) (m : BatchModel) {R : ℝ} (hR0 : 0 ≤ R)
    (hR : |1 - P.K 1| * R < P.K 1 * (P.RHOP * P.Qm))
    (hd : ∀ k, P.VL * P.C0 1 * (P.EPOR * (P.Dp - P.Ds) / P.Ds * P.C0 1 + 2 * (P.RHOP * P.Qm)) ≤ 3 * P.VR * P.Wr k * R ^ 2) :
    Spec.Settles m P := by
  have hQ := h.resin
  have hrange : Spec.Range (P.K 1) (P.RHOP * P.Qm) (-R) (max R (P.RHOP * P.Qm)) := by
    have h1 := abs_le.1 (le_refl |1 - P.K 1|)
    have h2 := mul_le_mul_of_nonneg_right h1.2 hR0
    have h3 := mul_le_mul_of_nonneg_right h1.1 hR0
    refine ⟨by linarith, le_max_right _ _, by nlinarith, ?_⟩
    rcases le_total R (P.RHOP * P.Qm) with h4 | h4
    · rw [max_eq_right h4]; linarith
    · rw [max_eq_left h4]; nlinarith
  obtain ⟨qs, hiso⟩ := binK_iso hrange hk hQ h.total
  obtain ⟨w, hw0, hw⟩ := line_global h.grid hiso (h.pore m) h.beta h.f h.mu (ionPart (batchInit P) 1)
  refine binary_run h hrange hk0 hk m hw0 hw fun t ht k _ => ?_
  have hβ := h.beta
  have hμ := h.mu
  have hα := h.pore m
  have hWk := h.grid.wpos k
  obtain ⟨hVR, hVL⟩ := h.vol
  obtain ⟨-, hV, -⟩ := line_bound h.grid hiso hα hβ h.f hμ ht (fun s hs => (hw s hs.1).mono Icc_subset_Ici_self)
  have hge := (lineV_ge hiso hα hβ hμ h.grid.wpos (w t)).trans hV
  have h1 : P.Wr k * (P.Ds / P.rb ^ 2 / 2 * (w t).1 k ^ 2) ≤ ∑ k, P.Wr k * (P.Ds / P.rb ^ 2 / 2 * (w t).1 k ^ 2) :=
    Finset.single_le_sum (f := fun k => P.Wr k * (P.Ds / P.rb ^ 2 / 2 * (w t).1 k ^ 2))
      (fun j _ => by have := h.grid.wpos j; positivity) (Finset.mem_univ k)
  have hc1 := h.conc 1
  -- the potential at the start
  have hint : ∫ s in (0:ℝ)..P.C0 1, qs s ≤ P.C0 1 * (P.RHOP * P.Qm) := by
    have h2 : ∫ s in (0:ℝ)..P.C0 1, qs s ≤ ∫ _ in (0:ℝ)..P.C0 1, P.RHOP * P.Qm := by
      refine intervalIntegral.integral_mono_on hc1 (hiso.cqs.intervalIntegrable _ _) intervalIntegrable_const fun s hs => ?_
      refine hiso.mono.le_iff_le.1 ?_
      rw [hiso.inv, binK_full hrange hQ]
      have h3 : ∑ i, P.C0 i = P.C0 0 + P.C0 1 := Fin.sum_univ_two _
      have := h.conc 0
      linarith [hs.2]
    rw [intervalIntegral.integral_const, sub_zero, smul_eq_mul] at h2
    exact h2
  have hV0 : tankV (binK (P.K 1) (P.RHOP * P.Qm) (∑ i, P.C0 i) (-R) (max R (P.RHOP * P.Qm))) qs (m.pore P) (P.Ds / P.rb ^ 2)
      (3 * P.VR / P.VL) P.Wr (w 0) ≤
      1 / (3 * P.VR / P.VL) * (m.pore P / 2 * P.C0 1 ^ 2 + P.Ds / P.rb ^ 2 * (P.C0 1 * (P.RHOP * P.Qm))) := by
    rw [hw0, binary_start h]
    unfold tankV
    simp only [intervalIntegral.integral_same]
    have : ∑ k, P.Wr k * (m.pore P * 0 + P.Ds / P.rb ^ 2 / 2 * 0 ^ 2) = 0 := Finset.sum_eq_zero fun k _ => by ring
    rw [this, zero_add]
    refine mul_le_mul_of_nonneg_left ?_ (by positivity)
    have := mul_le_mul_of_nonneg_left hint hβ.le
    linarith
  have hpore : m.pore P ≤ P.Ds / P.rb ^ 2 * (P.EPOR * (P.Dp - P.Ds) / P.Ds) := by
    have hDs := h.diff.1.ne'
    have hrb := h.film.2.ne'
    cases m
    · exact mul_nonneg hβ.le (div_nonneg (mul_nonneg h.por.1 (sub_nonneg.2 h.diff.2)) h.diff.1.le)
    · refine le_of_eq ?_
      show P.EPOR * (P.Dp - P.Ds) / P.rb ^ 2 = _
      field_simp
  have h5 := h1.trans (hge.trans hV0)
  have h6 : (w t).1 k ^ 2 ≤ R ^ 2 := by
    have hdk := hd k
    have h7 : m.pore P / 2 * P.C0 1 ^ 2 ≤ P.Ds / P.rb ^ 2 * (P.EPOR * (P.Dp - P.Ds) / P.Ds) / 2 * P.C0 1 ^ 2 :=
      mul_le_mul_of_nonneg_right (by linarith) (sq_nonneg _)
    set β := P.Ds / P.rb ^ 2 with hβd
    set ρ := P.EPOR * (P.Dp - P.Ds) / P.Ds with hρ
    have h8 : 1 / (3 * P.VR / P.VL) * (m.pore P / 2 * P.C0 1 ^ 2 + β * (P.C0 1 * (P.RHOP * P.Qm))) ≤
        β / 2 * (P.Wr k * R ^ 2) := by
      have e : 1 / (3 * P.VR / P.VL) = P.VL / (3 * P.VR) := by field_simp
      rw [e, div_mul_eq_mul_div, div_le_iff₀ (by positivity)]
      have h9 : P.VL * (m.pore P / 2 * P.C0 1 ^ 2 + β * (P.C0 1 * (P.RHOP * P.Qm))) ≤
          β / 2 * (P.VL * P.C0 1 * (ρ * P.C0 1 + 2 * (P.RHOP * P.Qm))) := by
        have := mul_le_mul_of_nonneg_left h7 hVL.le
        nlinarith
      have h10 := mul_le_mul_of_nonneg_left hdk (by positivity : 0 ≤ β / 2)
      linarith
    have h11 : P.Wr k * (β / 2) * (w t).1 k ^ 2 ≤ P.Wr k * (β / 2) * R ^ 2 := by linarith
    exact le_of_mul_le_mul_left h11 (by positivity)
  have h7 := abs_le_of_sq_le_sq' h6 hR0
  exact ⟨h7.1, h7.2.trans (le_max_left _ _)⟩

end

/-- C220. With one bead point no loading ever falls below zero, and every such contactor settles, whatever the selectivity. -/
theorem c220_single {P : BatchParams 0 1} {jac : Fin 0 → ℝ} (h : Spec.Contactor P jac) (hk0 : P.K 0 = 1) (hk : 0 < P.K 1)
    (m : BatchModel) : Spec.Settles m P := by
  have hR := range_plain hk h.resin
  obtain ⟨qs, hiso⟩ := binK_iso hR hk h.resin h.total
  obtain ⟨w, hw0, hw⟩ := line_global h.grid hiso (h.pore m) h.beta h.f h.mu (ionPart (batchInit P) 1)
  refine binary_run h hR hk0 hk m hw0 hw fun t ht k _ => ?_
  have hQ := h.resin
  have hκQ := binK_full (CT := ∑ i, P.C0 i) hR hQ
  set Q := P.RHOP * P.Qm with hQd
  set CT := ∑ i, P.C0 i with hCT
  set κ := binK (P.K 1) Q CT 0 Q with hκ
  have hWr := h.grid.wpos (Fin.last 0)
  have hcont : ContinuousOn w (Ici 0) := fun t ht => (hw t ht).continuousWithinAt
  have i1 : (w 0).1 0 = 0 := by
    rw [hw0]
    show batchInit P (Fin.succ 0) 1 = 0
    simp [batchInit, h.nodv]
  have i2 : (w 0).2 = P.C0 1 := by
    rw [hw0]
    show batchInit P 0 1 = _
    simp [batchInit]
  -- the water stays above equilibrium
  have hd : ∀ t ≥ 0, 0 ≤ (w t).2 - κ ((w t).1 0) := by
    intro t ht
    by_contra hneg
    push Not at hneg
    have hdc : ContinuousOn (fun t => (w t).2 - κ ((w t).1 0)) (Icc 0 t) := by
      have h1 : ContinuousOn w (Icc 0 t) := hcont.mono Icc_subset_Ici_self
      have h2 := hiso.lip.continuous
      have h3 : Continuous fun u : (Fin 1 → ℝ) × ℝ => u.2 - κ (u.1 0) := by fun_prop
      exact h3.comp_continuousOn h1
    have h0 : 0 ≤ (w 0).2 - κ ((w 0).1 0) := by
      rw [i1, i2, hiso.zero, sub_zero]
      exact h.conc 1
    obtain ⟨s, hs, hs0⟩ := intermediate_value_Icc' ht hdc ⟨hneg.le, h0⟩
    have hs0' : (w s).2 - κ ((w s).1 0) = 0 := hs0
    have hrest : ionRhs m P κ (w s) = 0 := by
      refine Prod.ext (funext fun k => ?_) ?_
      · have : k = Fin.last 0 := Subsingleton.elim (α := Fin 1) _ _
        subst this
        simp only [ionRhs, tankRhs, if_true]
        have e : (w s).2 - κ ((w s).1 (Fin.last 0)) = 0 := hs0'
        rw [e]
        simp
      · simp only [ionRhs, tankRhs]
        have e : (w s).2 - κ ((w s).1 (Fin.last 0)) = 0 := hs0'
        rw [e]
        simp
    have hcst := unique_auto (F := ionRhs m P κ) (a := s) (b := t) (y1 := w) (y2 := fun _ => w s) (line_lip hiso _ _)
      (fun x hx => (hw x (hs.1.trans hx.1)).mono (fun z hz => hs.1.trans hz.1))
      (fun x _ => by rw [hrest]; exact hasDerivWithinAt_const _ _ _) rfl t ⟨hs.2, le_rfl⟩
    rw [hcst, hs0'] at hneg
    exact lt_irrefl _ hneg
  have hf := h.f
  have hmu := h.mu
  have hparts := fun t (ht : t ≥ 0) => tank_parts (hw t ht)
  have hq : MonotoneOn (fun t => (w t).1 0) (Ici 0) := by
    refine monotoneOn_of_deriv_nonneg (convex_Ici 0) (fun t ht => ((hparts t ht).1 0).continuousWithinAt) (fun t ht => ?_)
      (fun t ht => ?_)
    · rw [interior_Ici] at ht
      exact (((hparts t ht.le).1 0).hasDerivAt (Ici_mem_nhds ht)).differentiableAt.differentiableWithinAt
    · rw [interior_Ici] at ht
      rw [(((hparts t ht.le).1 0).hasDerivAt (Ici_mem_nhds ht)).deriv]
      have e : (0 : Fin 1) = Fin.last 0 := rfl
      simp only [tankRhs, e, if_true]
      have h1 := hd t ht.le
      have : 0 ≤ (P.kL / P.rb * ((w t).2 - κ ((w t).1 0)) - 0) / P.Wr (Fin.last 0) :=
        div_nonneg (by rw [sub_zero]; exact mul_nonneg hf.le h1) hWr.le
      simpa using this
  have hc : AntitoneOn (fun t => (w t).2) (Ici 0) := by
    refine antitoneOn_of_deriv_nonpos (convex_Ici 0) (fun t ht => ((hparts t ht).2).continuousWithinAt) (fun t ht => ?_)
      (fun t ht => ?_)
    · rw [interior_Ici] at ht
      exact (((hparts t ht.le).2).hasDerivAt (Ici_mem_nhds ht)).differentiableAt.differentiableWithinAt
    · rw [interior_Ici] at ht
      rw [(((hparts t ht.le).2).hasDerivAt (Ici_mem_nhds ht)).deriv]
      simp only [tankRhs]
      have h1 := hd t ht.le
      exact neg_nonpos.2 (mul_nonneg hmu.le (mul_nonneg hf.le h1))
  have hk' : k = 0 := Subsingleton.elim (α := Fin 1) _ _
  subst hk'
  have h1 : 0 ≤ (w t).1 0 := by
    have := hq (mem_Ici.2 le_rfl) ht ht
    simp only [i1] at this
    exact this
  refine ⟨h1, ?_⟩
  have h2 : (w t).2 ≤ CT := by
    have h3 := hc (mem_Ici.2 le_rfl) ht ht
    simp only [i2] at h3
    have h4 : CT = P.C0 0 + P.C0 1 := Fin.sum_univ_two _
    have := h.conc 0
    linarith
  exact hiso.mono.le_iff_le.1 (by rw [hκQ]; linarith [hd t ht])

/-- A contactor of three ions without selectivity and three bead points, and one of two ions with selectivity 3. -/
example : ∃ (jac : Fin 2 → ℝ) (P : BatchParams 2 2), Spec.Contactor P jac ∧ ∀ i, P.K i = 1 := by
  obtain ⟨jac, B, W, g⟩ := beadGrid_exists 2
  refine ⟨jac, ⟨1, 5, 1 / 2, 1, 100, 1, 2, 1, 1 / 10, ![1, 2, 3], fun _ => 1, fun _ => 1, B, W⟩, ⟨g, by norm_num, by norm_num,
    by norm_num, by norm_num, by norm_num, fun i => ?_, ?_, fun _ => rfl⟩, fun _ => rfl⟩
  · fin_cases i <;> simp
  · norm_num [Fin.sum_univ_succ]

/-- Three bead points, selectivity 3, and water with little of the second ion. -/
example (m : BatchModel) : ∃ (jac : Fin 2 → ℝ) (P : BatchParams 2 1), Spec.Contactor P jac ∧ P.K 0 = 1 ∧ P.K 1 = 3 ∧
    0 < P.C0 1 ∧ Spec.Settles m P := by
  obtain ⟨jac, B, W, g⟩ := beadGrid_exists 2
  obtain ⟨w, hw0, hw⟩ : ∃ w, 0 < w ∧ ∀ k, w ≤ W k := by
    refine ⟨min (W 0) (min (W 1) (W 2)), lt_min (g.wpos 0) (lt_min (g.wpos 1) (g.wpos 2)), fun k => ?_⟩
    fin_cases k
    · exact min_le_left _ _
    · exact (min_le_right _ _).trans (min_le_left _ _)
    · exact (min_le_right _ _).trans (min_le_right _ _)
  let c : ℝ := min 1 w
  have hc : 0 < c := lt_min one_pos hw0
  have hc1 : c ≤ 1 := min_le_left _ _
  have hcw : c ≤ w := min_le_right _ _
  let P : BatchParams 2 1 := ⟨1, 5, 1 / 2, 10, 1, 1, 2, 1, 1 / 10, ![1, c], ![1, 3], fun _ => 1, B, W⟩
  have e0 : P.C0 0 = 1 := rfl
  have e1 : P.C0 1 = c := rfl
  have ek : P.K 1 = 3 := rfl
  have eQ : P.RHOP * P.Qm = 5 := by norm_num [P]
  have h : Spec.Contactor P jac := by
    refine ⟨g, by norm_num [P], by norm_num [P], by norm_num [P], by norm_num [P], by norm_num [P], fun i => ?_, ?_, fun _ => rfl⟩
    · fin_cases i
      · exact zero_le_one
      · exact hc.le
    · have : ∑ i, P.C0 i = P.C0 0 + P.C0 1 := Fin.sum_univ_two _
      rw [this, e0, e1]; linarith
  refine ⟨jac, P, h, rfl, rfl, hc, c220_dilute h rfl (by rw [ek]; norm_num) m (R := 2) (by norm_num) ?_ fun k => ?_⟩
  · rw [ek, eQ]; norm_num
  · rw [e1, eQ]
    have hk := hw k
    show 1 * c * (1 / 2 * (2 - 1) / 1 * c + 2 * 5) ≤ 3 * 10 * W k * 2 ^ 2
    nlinarith

/-- One bead point, selectivity 3, and as much of the second ion as one likes. -/
example (m : BatchModel) (c : ℝ) (hc : 0 < c) : ∃ (jac : Fin 0 → ℝ) (P : BatchParams 0 1), Spec.Contactor P jac ∧ P.K 1 = 3 ∧
    P.C0 1 = c ∧ Spec.Settles m P ∧ ∃ q c, Spec.Exchange P q c := by
  obtain ⟨jac, B, W, g⟩ := beadGrid_exists 0
  let P : BatchParams 0 1 := ⟨1, 5, 1 / 2, 1, 100, 1, 2, 1, 1 / 10, ![1, c], ![1, 3], fun _ => 1, B, W⟩
  have hk : 0 < P.K 1 := by norm_num [P]
  have h : Spec.Contactor P jac := by
    refine ⟨g, by norm_num [P], by norm_num [P], by norm_num [P], by norm_num [P], by norm_num [P], fun i => ?_, ?_, fun _ => rfl⟩
    · fin_cases i
      · exact zero_le_one
      · exact hc.le
    · have : ∑ i, P.C0 i = 1 + c := Fin.sum_univ_two _
      rw [this]; linarith
  obtain ⟨⟨q, c'⟩, he, -⟩ := c220_exchange h hk
  exact ⟨jac, P, h, rfl, rfl, c220_single h rfl hk m, q, c', he⟩

end WTM
