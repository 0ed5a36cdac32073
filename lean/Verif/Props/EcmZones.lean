import Mathlib.Tactic
import Verif.Props.EcmRoot

/-! C222: equilibrium columns with a common exponent, strongest component first. -/
set_option autoImplicit false
namespace WTM
open BigOperators

/-- A common exponent `r`, the components in order of falling capacity, a bed with water in it. -/
structure Spec.Ranked (d : EcmData) (b : EcmBed) (r : ℝ) : Prop where
  n_pos : 0 < d.n
  exp_pos : 0 < r
  exp_le : r ≤ 1
  same : ∀ i, d.invn i = r ∧ d.xn i = 1 / r
  cap_pos : ∀ i, 0 < d.K i
  ranked : ∀ i j, i < j → j < d.n → d.K j < d.K i
  mw_pos : ∀ i, 0 < d.mw i
  c0_pos : ∀ i, 0 < d.c0 i
  molar : ∀ i, d.co i = d.c0 i / d.mw i
  vf_pos : 0 < b.vf
  rhob_pos : 0 < b.rhob
  eps_pos : 0 < b.eps

/-- Both calls of the root finder return roots, and the loadings stored are positive. -/
def EcmData.GoodRoots (d : EcmData) (b : EcmBed) (root : Root) : Prop :=
  d.RootOk b root ∧ ∀ i k, i ≤ k → k < d.n → 0 < (d.run b root).q i k

section
variable {d : EcmData} {b : EcmBed} {r : ℝ} {root root' : Root}

theorem Spec.Ranked.ok (h : Spec.Ranked d b r) : d.Ok := fun i =>
  ⟨h.cap_pos i, by rw [(h.same i).1]; exact h.exp_pos, by rw [(h.same i).2, (h.same i).1]⟩

theorem Spec.Ranked.nu (h : Spec.Ranked d b r) : 1 ≤ 1 / r := (one_le_div h.exp_pos).2 h.exp_le

/-- Loadings of zone `i` as a vector. -/
def rowQ (d : EcmData) (s : EcmState) (i : ℕ) (j : Fin (d.n - i)) : ℝ := s.q i (i + j)

/-- Total loading of zone `i`. -/
noncomputable def totQ (d : EcmData) (s : EcmState) (i : ℕ) : ℝ := ∑ j, rowQ d s i j

/-- What holds in a zone. -/
structure ZoneOk (d : EcmData) (b : EcmBed) (r : ℝ) (s : EcmState) (i : ℕ) : Prop where
  q_pos : ∀ j, i ≤ j → j < d.n → 0 < s.q i j
  conc : ∀ j, i ≤ j → j < d.n → s.c i j = d.K j ^ (-(1 / r)) * s.q i j * totQ d s i ^ (1 / r - 1)
  speed : s.vw i = b.vf * s.c i i / Spec.held b.rhob b.eps s.q s.c i i

theorem fcn2e_common (h : Spec.Ranked d b r) {i : ℕ} (hi : i ≤ d.n) {x : Fin (d.n - i) → ℝ} (hx : 0 < ∑ j, x j)
    (j : Fin (d.n - i)) :
    d.fcn2e x j = d.K (i + j) ^ (-(1 / r)) * x j * (∑ j, x j) ^ (1 / r - 1) := by
  have e : d.n - (d.n - i) = i := by omega
  rw [← iastC_common (K := fun j : Fin (d.n - i) => d.K (i + j)) (one_div_pos.2 h.exp_pos) (fun j => h.cap_pos _) hx]
  unfold EcmData.fcn2e iastC
  simp only [e, (h.same _).2]

theorem row_total {s : EcmState} {i : ℕ} (hi : i < d.n) : totQ d s i = s.q i i + ∑ j : Fin (d.n - (i + 1)), s.q i (i + 1 + j) := by
  unfold totQ rowQ
  obtain ⟨m, hm⟩ : ∃ m, d.n - i = m + 1 := ⟨d.n - i - 1, by omega⟩
  have hm' : d.n - (i + 1) = m := by omega
  rw [hm, hm', Fin.sum_univ_succ]
  congr 1
  refine Finset.sum_congr rfl fun j _ => ?_
  rw [Fin.val_succ, ← add_assoc, add_right_comm]

theorem ZoneOk.tot_pos {s : EcmState} {i : ℕ} (z : ZoneOk d b r s i) (hi : i < d.n) : 0 < totQ d s i :=
  Finset.sum_pos (fun j _ => z.q_pos _ (by omega) (by omega)) ⟨⟨0, by omega⟩, Finset.mem_univ _⟩

theorem kpow_lt (h : Spec.Ranked d b r) {i j : ℕ} (hij : i < j) (hj : j < d.n) :
    d.K i ^ (-(1 / r)) < d.K j ^ (-(1 / r)) :=
  Real.rpow_lt_rpow_of_neg (h.cap_pos j) (h.ranked i j hij hj) (neg_neg_of_pos (one_div_pos.2 h.exp_pos))

/-- The problem solved behind front `i`. -/
noncomputable def frontOf (h : Spec.Ranked d b r) {s : EcmState} {i : ℕ} (hi : i + 1 < d.n) (z : ZoneOk d b r s i) :
    FrontData (d.n - (i + 1)) (1 / r) where
  k := fun j => d.K (i + 1 + j) ^ (-(1 / r))
  q := fun j => s.q i (i + 1 + j)
  lam := d.K i ^ (-(1 / r)) * totQ d s i ^ (1 / r - 1)
  T := totQ d s i
  hk := fun j => Real.rpow_pos_of_pos (h.cap_pos _) _
  hq := fun j => z.q_pos _ (by omega) (by omega)
  hlam := mul_pos (Real.rpow_pos_of_pos (h.cap_pos _) _) (Real.rpow_pos_of_pos (z.tot_pos (by omega)) _)
  hT := by
    rw [row_total (by omega : i < d.n)]
    linarith [z.q_pos i le_rfl (by omega)]
  hord := fun j => mul_lt_mul_of_pos_right (kpow_lt h (by omega) (by omega))
    (Real.rpow_pos_of_pos (z.tot_pos (by omega)) _)

theorem ZoneOk.lam {s : EcmState} {i : ℕ} (z : ZoneOk d b r s i) (hi : i < d.n) :
    s.c i i = d.K i ^ (-(1 / r)) * totQ d s i ^ (1 / r - 1) * s.q i i := by
  rw [z.conc i le_rfl hi]; ring

theorem ZoneOk.lam_pos (h : Spec.Ranked d b r) {s : EcmState} {i : ℕ} (z : ZoneOk d b r s i) (hi : i < d.n) :
    0 < d.K i ^ (-(1 / r)) * totQ d s i ^ (1 / r - 1) :=
  mul_pos (Real.rpow_pos_of_pos (h.cap_pos _) _) (Real.rpow_pos_of_pos (z.tot_pos hi) _)

/-- The speed of a front in terms of the ratio of concentration to loading. -/
theorem ZoneOk.speed_lam {s : EcmState} {i : ℕ} (z : ZoneOk d b r s i) (hi : i < d.n) :
    s.vw i = b.vf * (d.K i ^ (-(1 / r)) * totQ d s i ^ (1 / r - 1)) /
      (b.rhob + b.eps * (d.K i ^ (-(1 / r)) * totQ d s i ^ (1 / r - 1))) := by
  have hq := (z.q_pos i le_rfl hi).ne'
  rw [z.speed]
  unfold Spec.held
  rw [z.lam hi, ← mul_assoc, ← mul_assoc b.eps, ← add_mul, mul_div_mul_right _ _ hq]

theorem ZoneOk.speed_pos (h : Spec.Ranked d b r) {s : EcmState} {i : ℕ} (z : ZoneOk d b r s i) (hi : i < d.n) :
    0 < s.vw i ∧ 0 < b.vf - s.vw i * b.eps := by
  have hl := z.lam_pos h hi
  have h1 := h.vf_pos
  have h2 := h.rhob_pos
  have h3 := h.eps_pos
  rw [z.speed_lam hi]
  set l := d.K i ^ (-(1 / r)) * totQ d s i ^ (1 / r - 1)
  refine ⟨by positivity, ?_⟩
  have : b.vf - b.vf * l / (b.rhob + b.eps * l) * b.eps = b.vf * b.rhob / (b.rhob + b.eps * l) := by
    field_simp
    ring
  rw [this]
  positivity

/-- The equations solved behind front `i` are the flux conditions. -/
theorem extra_iff (h : Spec.Ranked d b r) {s : EcmState} {i : ℕ} (hi : i + 1 < d.n) (z : ZoneOk d b r s i)
    {x : Fin (d.n - (i + 1)) → ℝ} (hx : ∀ j, 0 < x j) :
    (∀ j, d.fcnExtra b s x j = 0) ↔ (frontOf h hi z).Sol x := by
  have hpos : 0 < ∑ j, x j := Finset.sum_pos (fun j _ => hx j) ⟨⟨0, by omega⟩, Finset.mem_univ _⟩
  have e1 : d.n - (d.n - (i + 1)) = i + 1 := by omega
  have hl := z.lam_pos h (by omega)
  obtain ⟨hv, hv'⟩ := z.speed_pos h (by omega)
  have hlam : b.rhob * s.vw i / (b.vf - s.vw i * b.eps) = d.K i ^ (-(1 / r)) * totQ d s i ^ (1 / r - 1) := by
    rw [div_eq_iff hv'.ne', z.speed_lam (by omega)]
    have h1 := h.vf_pos
    have h2 := h.rhob_pos
    have h3 := h.eps_pos
    set l := d.K i ^ (-(1 / r)) * totQ d s i ^ (1 / r - 1)
    have : b.rhob + b.eps * l ≠ 0 := by positivity
    field_simp
    ring
  unfold FrontData.Sol
  refine forall_congr' fun j => ?_
  unfold EcmData.fcnExtra
  simp only [e1, Nat.add_sub_cancel]
  rw [fcn2e_common h hi.le hpos j, mul_assoc, mul_div_assoc, hlam, z.conc (i + 1 + j) (by omega) (by omega), sub_eq_zero]
  unfold frontOf
  simp only
  rw [mul_comm (x j - _)]

/-- The calls of the root finder up to zone `i` are good. -/
def Upto (d : EcmData) (b : EcmBed) (root : Root) (i : ℕ) : Prop :=
  d.FirstOk root ∧ ∀ k, k + 1 ≤ i → k + 1 < d.n →
    (∀ j, 0 < d.load b root (d.zones b root k) (k + 1) j) ∧
      ∀ j, d.fcnExtra b (d.zones b root k) (d.load b root (d.zones b root k) (k + 1)) j = 0

theorem zone_q_succ (k : ℕ) (j : Fin (d.n - (k + 1))) :
    (d.zones b root (k + 1)).q (k + 1) (k + 1 + j) = d.load b root (d.zones b root k) (k + 1) j := by
  simp [EcmData.zones, EcmData.step, setRow, placed]

theorem zone_c_succ (k : ℕ) (j : Fin (d.n - (k + 1))) :
    (d.zones b root (k + 1)).c (k + 1) (k + 1 + j) = d.fcn2e (d.load b root (d.zones b root k) (k + 1)) j := by
  simp [EcmData.zones, EcmData.step, setRow, placed]

theorem zone_q_zero (j : Fin d.n) : (d.zones b root 0).q 0 j = d.load0 root j := by
  simp [EcmData.zones, EcmData.first, setRow, placed]

theorem zone_c_zero : (d.zones b root 0).c 0 = d.co := by
  simp [EcmData.zones, EcmData.first, setRow]

theorem zone_basic (h : Spec.Ranked d b r) {i : ℕ} (hi : i < d.n) (hu : Upto d b root i) :
    (∀ j, i ≤ j → j < d.n → 0 < (d.zones b root i).q i j) ∧
      ∀ j, i ≤ j → j < d.n → (d.zones b root i).c i j =
        d.K j ^ (-(1 / r)) * (d.zones b root i).q i j * totQ d (d.zones b root i) i ^ (1 / r - 1) := by
  cases i with
  | zero =>
    refine ⟨fun j _ hj => ?_, fun j _ hj => ?_⟩
    · rw [zone_q_zero ⟨j, hj⟩]; exact hu.1.1 _
    · have hx : 0 < ∑ k, d.load0 root k := Finset.sum_pos (fun k _ => hu.1.1 k) ⟨⟨0, hi⟩, Finset.mem_univ _⟩
      have h1 := (fcn_iff h.mw_pos).1 hu.1.2 ⟨j, hj⟩
      have e : (fun i : Fin d.n => d.xn i) = fun _ => 1 / r := funext fun i => (h.same i).2
      rw [e, iastC_common (one_div_pos.2 h.exp_pos) (fun i => h.cap_pos i) hx] at h1
      have et : totQ d (d.zones b root 0) 0 = ∑ k, d.load0 root k := by
        unfold totQ rowQ
        refine Finset.sum_congr rfl fun k _ => ?_
        rw [Nat.zero_add]
        exact zone_q_zero (b := b) k
      rw [zone_c_zero, h.molar, et, zone_q_zero ⟨j, hj⟩]
      exact h1.symm
  | succ k =>
    obtain ⟨h1, h2⟩ := hu.2 k le_rfl hi
    have hx : 0 < ∑ j, d.load b root (d.zones b root k) (k + 1) j :=
      Finset.sum_pos (fun j _ => h1 j) ⟨⟨0, by omega⟩, Finset.mem_univ _⟩
    refine ⟨fun j hj1 hj => ?_, fun j hj1 hj => ?_⟩
    · have := zone_q_succ (d := d) (b := b) (root := root) k ⟨j - (k + 1), by omega⟩
      rw [show k + 1 + (⟨j - (k + 1), by omega⟩ : Fin (d.n - (k + 1))).val = j by simp only; omega] at this
      rw [this]
      exact h1 _
    · have e1 := zone_q_succ (d := d) (b := b) (root := root) k ⟨j - (k + 1), by omega⟩
      have e2 := zone_c_succ (d := d) (b := b) (root := root) k ⟨j - (k + 1), by omega⟩
      have e3 : k + 1 + (⟨j - (k + 1), by omega⟩ : Fin (d.n - (k + 1))).val = j := by simp only; omega
      rw [e3] at e1 e2
      have et : totQ d (d.zones b root (k + 1)) (k + 1) = ∑ j, d.load b root (d.zones b root k) (k + 1) j := by
        unfold totQ rowQ
        exact Finset.sum_congr rfl fun j _ => zone_q_succ k j
      rw [e1, e2, et, fcn2e_common h hi.le hx, e3]

theorem ZoneOk.congr {s t : EcmState} {i : ℕ} (hq : s.q i = t.q i) (hc : s.c i = t.c i) (hv : s.vw i = t.vw i)
    (z : ZoneOk d b r s i) : ZoneOk d b r t i := by
  have et : totQ d s i = totQ d t i := by unfold totQ rowQ; rw [hq]
  refine ⟨?_, ?_, ?_⟩
  · rw [← hq]; exact z.q_pos
  · rw [← hq, ← hc, ← et]; exact z.conc
  · rw [← hv, z.speed]; unfold Spec.held; rw [hq, hc]

theorem zone_of_upto (h : Spec.Ranked d b r) {i : ℕ} (hi : i < d.n) (hu : Upto d b root i) :
    ZoneOk d b r (d.run b root) i ∧ ZoneOk d b r (d.zones b root i) i := by
  induction i using Nat.strong_induction_on with
  | _ i ih =>
    obtain ⟨f1, f2, f3⟩ := run_frame (b := b) (root := root) hi
    obtain ⟨hq, hc⟩ := zone_basic h hi hu
    have et : totQ d (d.run b root) i = totQ d (d.zones b root i) i := by unfold totQ rowQ; rw [f1]
    rw [← f1] at hq
    rw [← f1, ← f2, ← et] at hc
    have hsp : (d.run b root).vw i = b.vf * (d.run b root).c i i /
        Spec.held b.rhob b.eps (d.run b root).q (d.run b root).c i i := by
      have hqi := hq i le_rfl hi
      have hT : 0 < totQ d (d.run b root) i :=
        Finset.sum_pos (fun j _ => hq _ (by omega) (by omega)) ⟨⟨0, by omega⟩, Finset.mem_univ _⟩
      have hci : 0 < (d.run b root).c i i := by
        rw [hc i le_rfl hi]
        exact mul_pos (mul_pos (Real.rpow_pos_of_pos (h.cap_pos _) _) hqi) (Real.rpow_pos_of_pos hT _)
      have h2 := h.rhob_pos
      have h3 := h.eps_pos
      refine front_at (h.mw_pos 0) (h.molar 0) hi ?_ fun k hk => ?_
      · unfold Spec.held; positivity
      · have zk := (ih k hk (by omega) ⟨hu.1, fun l hl => hu.2 l (by omega)⟩).1
        exact jump_at (hu.2 k (by omega) (by omega)).2 hk hi (zk.speed_pos h (by omega)).2.ne'
    have z : ZoneOk d b r (d.run b root) i := ⟨hq, hc, hsp⟩
    exact ⟨z, z.congr f1 f2 f3⟩

theorem upto_of_good (h : Spec.Ranked d b r) (hg : d.GoodRoots b root) (i : ℕ) : Upto d b root i := by
  obtain ⟨hr, hq⟩ := hg
  refine ⟨⟨fun j => ?_, hr.1⟩, fun k _ hk => ⟨fun j => ?_, ?_⟩⟩
  · have := hq 0 j (Nat.zero_le _) j.2
    rw [(run_frame h.n_pos).1, zone_q_zero] at this
    exact this
  · have := hq (k + 1) (k + 1 + j) (by omega) (by omega)
    rw [(run_frame hk).1, zone_q_succ] at this
    exact this
  · have := hr.2 (k + 1) (by omega) hk
    simpa only [Nat.add_sub_cancel] using this

theorem good_of_upto (h : Spec.Ranked d b r) (hu : ∀ i, Upto d b root i) : d.GoodRoots b root := by
  refine ⟨⟨(hu 0).1.2, fun i h1 hi => ?_⟩, fun i k hik hk => ?_⟩
  · obtain ⟨k, rfl⟩ : ∃ k, i = k + 1 := ⟨i - 1, by omega⟩
    simpa only [Nat.add_sub_cancel] using ((hu (k + 1)).2 k le_rfl hi).2
  · exact (zone_of_upto h (by omega) (hu i)).1.q_pos k hik hk

/-- C222. There are positive roots in every zone: a root finder that always finds one exists. -/
theorem c222_exists (h : Spec.Ranked d b r) : ∃ root : Root, d.GoodRoots b root := by
  classical
  let root : Root := fun m f g => if hx : ∃ x : Fin m → ℝ, (∀ i, 0 < x i) ∧ ∀ i, f x i = 0 then hx.choose else g
  have spec : ∀ (m : ℕ) (f : (Fin m → ℝ) → Fin m → ℝ) (g : Fin m → ℝ),
      (∃ x : Fin m → ℝ, (∀ i, 0 < x i) ∧ ∀ i, f x i = 0) → (∀ i, 0 < root m f g i) ∧ ∀ i, f (root m f g) i = 0 := by
    intro m f g hx
    have e : root m f g = hx.choose := by
      show (if hx : ∃ x : Fin m → ℝ, (∀ i, 0 < x i) ∧ ∀ i, f x i = 0 then hx.choose else g) = _
      rw [dif_pos hx]
    rw [e]
    exact hx.choose_spec
  have hu : ∀ i, Upto d b root i := by
    intro i
    induction i with
    | zero =>
      obtain ⟨x, h1, h2, -⟩ := c221_first h.ok h.n_pos h.mw_pos h.c0_pos
      exact ⟨spec _ _ _ ⟨x, h1, h2⟩, fun k hk => absurd hk (by omega)⟩
    | succ i ih =>
      refine ⟨ih.1, fun k hk hn => ?_⟩
      rcases Nat.lt_or_ge k i with hk' | hk'
      · exact ih.2 k hk' hn
      · obtain rfl : k = i := by omega
        have z := (zone_of_upto h (by omega) ih).2
        have : NeZero (d.n - (k + 1)) := ⟨by omega⟩
        obtain ⟨x, h1, h2⟩ := (frontOf h hn z).exists_sol h.nu
        exact spec _ _ _ ⟨x, h1, (extra_iff h hn z h1).2 h2⟩
  exact ⟨root, good_of_upto h hu⟩

/-- C222. The results do not depend on which: two runs with positive roots are the same. -/
theorem c222_unique (h : Spec.Ranked d b r) (hr : d.GoodRoots b root) (hr' : d.GoodRoots b root') :
    d.run b root = d.run b root' := by
  have hu := upto_of_good h hr
  have hu' := upto_of_good h hr'
  have key : ∀ k, k < d.n → d.zones b root k = d.zones b root' k := by
    intro k
    induction k with
    | zero =>
      intro hk
      show d.first b root = d.first b root'
      unfold EcmData.first
      rw [first_eq h.ok h.n_pos h.mw_pos h.c0_pos (hu 0).1 (hu' 0).1.1 (hu' 0).1.2]
    | succ k ih =>
      intro hk
      have e := ih (by omega)
      have z := (zone_of_upto h (by omega) (hu k)).2
      have : NeZero (d.n - (k + 1)) := ⟨by omega⟩
      obtain ⟨a1, a2⟩ := (hu (k + 1)).2 k le_rfl hk
      obtain ⟨b1, b2⟩ := (hu' (k + 1)).2 k le_rfl hk
      rw [← e] at b1 b2
      have hl : d.load b root (d.zones b root k) (k + 1) = d.load b root' (d.zones b root k) (k + 1) :=
        (frontOf h hk z).unique h.nu a1 b1 ((extra_iff h hk z a1).1 a2) ((extra_iff h hk z b1).1 b2)
      show d.step b root (d.zones b root k) (k + 1) = d.step b root' (d.zones b root' k) (k + 1)
      rw [← e]
      unfold EcmData.step
      rw [hl]
  exact key _ (by have := h.n_pos; omega)

theorem zone_pair (h : Spec.Ranked d b r) (hr : d.GoodRoots b root) {i : ℕ} (hi : i + 1 < d.n) :
    ∃ z : ZoneOk d b r (d.run b root) i, ZoneOk d b r (d.run b root) (i + 1) ∧
      (∀ j, 0 < rowQ d (d.run b root) (i + 1) j) ∧ (frontOf h hi z).Sol (rowQ d (d.run b root) (i + 1)) := by
  have hu := upto_of_good h hr
  obtain ⟨z, z0⟩ := zone_of_upto h (by omega) (hu i)
  have z' := (zone_of_upto h hi (hu (i + 1))).1
  have hp : ∀ j, 0 < rowQ d (d.run b root) (i + 1) j := fun j => z'.q_pos _ (by omega) (by omega)
  refine ⟨z, z', hp, ?_⟩
  obtain ⟨a1, a2⟩ := (hu (i + 1)).2 i le_rfl hi
  have e : rowQ d (d.run b root) (i + 1) = d.load b root (d.zones b root i) (i + 1) := by
    funext j
    unfold rowQ
    rw [(run_frame hi).1, zone_q_succ]
  rw [e]
  have hs := (extra_iff h hi z0 a1).1 a2
  obtain ⟨f1, f2, f3⟩ := run_frame (d := d) (b := b) (root := root) (i := i) (by omega)
  have et : totQ d (d.run b root) i = totQ d (d.zones b root i) i := by unfold totQ rowQ; rw [f1]
  unfold FrontData.Sol frontOf at hs ⊢
  simp only at hs ⊢
  rw [f1, et]
  exact hs

/-- C222. The fronts are in order: each moves faster than the one behind it. -/
theorem c222_fronts (h : Spec.Ranked d b r) (hr : d.GoodRoots b root) :
    Spec.FrontsApart d.n (d.run b root).vw := by
  have hstep : ∀ i, i + 1 < d.n → (d.run b root).vw i < (d.run b root).vw (i + 1) := by
    intro i hi
    obtain ⟨z, z', hp, hs⟩ := zone_pair h hr hi
    have hlt := (frontOf h hi z).sol_pole hp hs ⟨0, by omega⟩
    have hlt' : d.K i ^ (-(1 / r)) * totQ d (d.run b root) i ^ (1 / r - 1) <
        d.K (i + 1) ^ (-(1 / r)) * totQ d (d.run b root) (i + 1) ^ (1 / r - 1) := hlt
    have p1 := z.lam_pos h (by omega)
    have p2 := z'.lam_pos h hi
    rw [z.speed_lam (by omega), z'.speed_lam hi]
    set l := d.K i ^ (-(1 / r)) * totQ d (d.run b root) i ^ (1 / r - 1)
    set l' := d.K (i + 1) ^ (-(1 / r)) * totQ d (d.run b root) (i + 1) ^ (1 / r - 1)
    have h1 := h.vf_pos
    have h2 := h.rhob_pos
    have h3 := h.eps_pos
    rw [div_lt_div_iff₀ (by positivity) (by positivity)]
    have : 0 < b.vf * b.rhob * (l' - l) := by
      have := sub_pos.2 hlt'
      positivity
    nlinarith
  refine ⟨h.n_pos, ((zone_of_upto h h.n_pos (upto_of_good h hr 0)).1.speed_pos h h.n_pos).1, fun i j hij => ?_⟩
  induction j, hij using Nat.le_induction with
  | base => exact hstep i
  | succ j _ ih => exact fun hj => (ih (by omega)).trans (hstep j hj)

/-- C222. Ahead of a front the components that remain are displaced: loading and concentration are at least those
behind it, and higher if the isotherms are not linear; the total loading is lower. -/
theorem c222_displaced (h : Spec.Ranked d b r) (hr : d.GoodRoots b root) {i k : ℕ} (hik : i < k) (hk : k < d.n) :
    (d.run b root).q i k ≤ (d.run b root).q (i + 1) k ∧ (d.run b root).c i k ≤ (d.run b root).c (i + 1) k ∧
      (r < 1 → (d.run b root).q i k < (d.run b root).q (i + 1) k ∧ (d.run b root).c i k < (d.run b root).c (i + 1) k) ∧
      ∑ j ∈ Finset.Ico (i + 1) d.n, (d.run b root).q (i + 1) j < ∑ j ∈ Finset.Ico i d.n, (d.run b root).q i j := by
  obtain ⟨z, z', hp, hs⟩ := zone_pair h hr (i := i) (by omega)
  have : NeZero (d.n - (i + 1)) := ⟨by omega⟩
  have e3 : i + 1 + (⟨k - (i + 1), by omega⟩ : Fin (d.n - (i + 1))).val = k := by simp only; omega
  have hq := (frontOf h (by omega) z).rise h.nu hp hs ⟨k - (i + 1), by omega⟩
  have hsol := hs ⟨k - (i + 1), by omega⟩
  have hT := (frontOf h (by omega) z).total h.nu hp hs
  have hl : 0 < (frontOf h (by omega) z).lam := (frontOf h (by omega) z).hlam
  have hstrict : r < 1 → (d.run b root).q i k < (d.run b root).q (i + 1) k := by
    intro h1
    have hn : 1 < 1 / r := (one_lt_div h.exp_pos).2 h1
    have := (frontOf h (by omega) z).rise_strict hn hp hs ⟨k - (i + 1), by omega⟩
    unfold frontOf rowQ at this
    simp only [e3] at this
    exact this
  set lam := (frontOf h (by omega) z).lam with hlam
  unfold frontOf rowQ at hq hsol
  simp only [show i + 1 + (k - (i + 1)) = k by omega] at hq hsol
  have hc1 := z.conc k hik.le hk
  have hc2 := z'.conc k hik hk
  unfold totQ rowQ at hc2
  rw [← hc2, ← hc1] at hsol
  have hsol' : lam * ((d.run b root).q (i + 1) k - (d.run b root).q i k) + (d.run b root).c i k =
      (d.run b root).c (i + 1) k := hsol
  refine ⟨hq, ?_, fun h1 => ⟨hstrict h1, ?_⟩, ?_⟩
  · have := mul_nonneg hl.le (sub_nonneg.2 hq)
    linarith
  · have := mul_pos hl (sub_pos.2 (hstrict h1))
    linarith
  · have conv : ∀ a, totQ d (d.run b root) a = ∑ j ∈ Finset.Ico a d.n, (d.run b root).q a j := by
      intro a
      unfold totQ rowQ
      rw [Finset.sum_Ico_eq_sum_range, Finset.sum_range]
    have hT' : totQ d (d.run b root) (i + 1) < totQ d (d.run b root) i := hT
    rwa [conv, conv] at hT'

/-- Zones ahead of the front of a component are free of it. -/
theorem run_c_zero {i k : ℕ} (hk : k < d.n) (hik : i < k) : (d.run b root).c k i = 0 := by
  rw [(run_frame hk).2.1]
  cases k with
  | zero => omega
  | succ k =>
    simp only [EcmData.zones, EcmData.step, setRow, if_true, placed]
    rw [dif_neg (by omega)]

/-- C222. So the curve of a component is zero up to its day of breakthrough and at or above its influent afterwards. -/
theorem c222_effluent (h : Spec.Ranked d b r) (hr : d.GoodRoots b root) (hL : 0 < b.L.getD 2.765) {i : ℕ} (hi : i < d.n)
    (t : ℝ) :
    (t ≤ ecmDays b (d.run b root) i → d.plot b (d.run b root) i t = 0) ∧
      (ecmDays b (d.run b root) i < t → d.c0 i ≤ d.plot b (d.run b root) i t) := by
  have hF := c222_fronts h hr
  have hanti := days_anti hL hF
  have hrise : ∀ k, k ≤ i → d.co i ≤ (d.run b root).c k i := by
    intro k
    induction k with
    | zero => intro _; rw [run_c0 h.n_pos]
    | succ k ih =>
      intro hk
      exact (ih (by omega)).trans (c222_displaced h hr (i := k) (by omega) hi).2.1
  have hfind : ∀ m, m < d.n → ecmDays b (d.run b root) m < t → t ≤ ecmDays b (d.run b root) 0 →
      ∃ k, k + 1 ≤ m ∧ ecmDays b (d.run b root) (k + 1) < t ∧ t ≤ ecmDays b (d.run b root) k := by
    intro m
    induction m with
    | zero => intro _ h1 h2; linarith
    | succ m ih =>
      intro hm h1 h2
      rcases le_or_gt t (ecmDays b (d.run b root) m) with h3 | h3
      · exact ⟨m, le_rfl, h1, h3⟩
      · obtain ⟨k, a, b', c⟩ := ih (by omega) h3 h2
        exact ⟨k, by omega, b', c⟩
  constructor
  · intro ht
    rcases le_or_gt t (ecmDays b (d.run b root) (d.n - 1)) with h1 | h1
    · exact c97_before h.n_pos i h1
    · have h0 : t ≤ ecmDays b (d.run b root) 0 := by
        rcases Nat.eq_zero_or_pos i with rfl | hp
        · exact ht
        · exact ht.trans (hanti 0 i hp hi).le
      obtain ⟨k, hk, a1, a2⟩ := hfind (d.n - 1) (by have := h.n_pos; omega) h1 h0
      have hik : i < k + 1 := by
        by_contra hn
        rcases (not_lt.1 hn).eq_or_lt with e | e
        · rw [e] at a1; linarith
        · have := hanti (k + 1) i e hi; linarith
      rw [c97_between hL hF i (by omega) a1 a2, run_c_zero (by omega) hik, zero_mul]
  · intro ht
    have hmw := (h.mw_pos i)
    rcases le_or_gt t (ecmDays b (d.run b root) 0) with h0 | h0
    · obtain ⟨k, hk, a1, a2⟩ := hfind i hi ht h0
      rw [c97_between hL hF i (by omega) a1 a2, ← div_le_iff₀ hmw, ← h.molar]
      exact hrise (k + 1) hk
    · rw [c97_after hL hF hmw.ne' (h.molar i) h0]

end

/-- The example meets the hypotheses. -/
theorem exEcm_ranked : Spec.Ranked exEcm exEcmBed (1 / 2) := by
  refine ⟨by decide, by norm_num, by norm_num, ?_, ?_, ?_, ?_, ?_, fun _ => rfl, ?_, ?_, ?_⟩
  · intro i; unfold exEcm ecmData; simp only; split <;> norm_num
  · exact fun i => (exEcm_ok i).1
  · intro i j h1 h2
    have h2' : j < 2 := h2
    obtain ⟨rfl, rfl⟩ : i = 0 ∧ j = 1 := by omega
    norm_num [exEcm, ecmData]
  · intro i; unfold exEcm ecmData; simp only; split <;> norm_num
  · intro i; unfold exEcm ecmData; simp only; split <;> norm_num
  · norm_num [exEcmBed]
  · norm_num [exEcmBed]
  · norm_num [exEcmBed]

/-- Its roots are good ones, and its second component is displaced. -/
example : exEcm.GoodRoots exEcmBed exRoot := ⟨exEcm_root, exEcm_displaced.1⟩

/-! ### The order matters -/

/-- Two square-root isotherms, the weaker component first. -/
noncomputable def swEcm : EcmData :=
  ecmData false 2 fun i => if i = 0 then ⟨3 / 4, 1 / 2, 1, 5⟩ else ⟨1, 1 / 2, 1, 9 / 4⟩

/-- A root finder that returns `a` in the second zone. -/
noncomputable def swRoot (a : ℝ) : Root := fun m _ _ i => if m = 1 then a else if i.val = 0 then 5 / 4 else 1

theorem swEcm_q0 (a : ℝ) (j : ℕ) (hj : j < 2) : (swEcm.zones exEcmBed (swRoot a) 0).q 0 j = if j = 0 then 5 / 4 else 1 := by
  have h : swEcm.n = 2 := rfl
  simp [EcmData.zones, EcmData.first, swRoot, placed, EcmData.load0, setRow, h, hj]

theorem swEcm_vw0 (a : ℝ) : (swEcm.zones exEcmBed (swRoot a) 0).vw 0 = 20 / 3 := by
  norm_num [EcmData.zones, EcmData.first, swEcm, exEcmBed, swRoot, ecmData, placed, EcmData.load0]

theorem swEcm_load (a : ℝ) (s : EcmState) : swEcm.load exEcmBed (swRoot a) s 1 = fun _ => a := by
  funext k
  have : swEcm.n - 1 = 1 := rfl
  simp [EcmData.load, swRoot, this]

theorem swEcm_root {a : ℝ} (ha : 0 < a) (h : 4 * (a - 1) + 9 / 4 = a ^ 2) : swEcm.GoodRoots exEcmBed (swRoot a) := by
  refine ⟨⟨?_, ?_⟩, ?_⟩
  · intro j
    have hj : (j : ℕ) = 0 ∨ (j : ℕ) = 1 := by have := j.2; change (j : ℕ) < 2 at this; omega
    have e : ∀ x : Fin swEcm.n → ℝ, ∑ k, x k = x ⟨0, by decide⟩ + x ⟨1, by decide⟩ := fun x => Fin.sum_univ_two (f := x)
    unfold EcmData.fcn EcmData.fcn2
    rw [e, e]
    have hn : swEcm.n ≠ 1 := by decide
    rcases hj with hj | hj
    · obtain rfl : j = ⟨0, by decide⟩ := Fin.ext hj
      norm_num [EcmData.load0, swRoot, swEcm, ecmData, ← Real.rpow_natCast]
    · obtain rfl : j = ⟨1, by decide⟩ := Fin.ext hj
      norm_num [EcmData.load0, swRoot, swEcm, ecmData, ← Real.rpow_natCast]
  · intro i h1 h2 j
    have h2' : i < 2 := h2
    obtain rfl : i = 1 := by omega
    rw [swEcm_load]
    suffices key : swEcm.fcnExtra exEcmBed (swEcm.zones exEcmBed (swRoot a) 0) (m := 1) (fun _ => a) 0 = 0 by
      have hj : ∀ j : Fin 1, swEcm.fcnExtra exEcmBed (swEcm.zones exEcmBed (swRoot a) 0) (fun _ => a) j = 0 := by
        intro j; rw [Subsingleton.elim j 0]; exact key
      exact hj j
    have hv := swEcm_vw0 a
    have hq : (swEcm.zones exEcmBed (swRoot a) 0).q 0 1 = 1 := swEcm_q0 a 1 (by norm_num)
    have hc : (swEcm.zones exEcmBed (swRoot a) 0).c 0 1 = 9 / 4 := by
      rw [zone_c_zero]
      norm_num [swEcm, ecmData]
    have hn : swEcm.n - 1 = 1 := rfl
    unfold EcmData.fcnExtra EcmData.fcn2e
    simp only [Fin.sum_univ_one, Fin.val_zero, Nat.add_zero, hn, Nat.sub_self, hv, hq, hc]
    rw [div_self ha.ne']
    have e : (swEcm.xn 1 * a / (swEcm.xn 1 * swEcm.K 1)) ^ swEcm.xn 1 = a ^ 2 := by
      norm_num [swEcm, ecmData]
    rw [e, one_mul, ← h]
    norm_num [exEcmBed]
    ring
  · intro i k h1 h2
    have h2' : k < 2 := h2
    rw [(run_frame (d := swEcm) (b := exEcmBed) (root := swRoot a) (i := i) (lt_of_le_of_lt h1 h2)).1]
    obtain rfl | rfl : i = 0 ∨ i = 1 := by omega
    · rw [swEcm_q0 a k h2']
      split <;> norm_num
    · obtain rfl : k = 1 := by omega
      have := zone_q_succ (d := swEcm) (b := exEcmBed) (root := swRoot a) 0 ⟨0, by decide⟩
      rw [swEcm_load] at this
      exact this.symm ▸ ha

/-- C222. With the weaker component first the result depends on the root found: here both 1/2 and 7/2 are loadings
that solve the equations of the second zone. -/
theorem c222_order : ∃ root root' : Root, swEcm.GoodRoots exEcmBed root ∧ swEcm.GoodRoots exEcmBed root' ∧
    (swEcm.run exEcmBed root).q 1 1 = 1 / 2 ∧ (swEcm.run exEcmBed root').q 1 1 = 7 / 2 := by
  refine ⟨swRoot (1 / 2), swRoot (7 / 2), swEcm_root (by norm_num) (by norm_num), swEcm_root (by norm_num) (by norm_num), ?_, ?_⟩
  all_goals
    rw [(run_frame (d := swEcm) (i := 1) (by decide)).1]
    have := fun a => zone_q_succ (d := swEcm) (b := exEcmBed) (root := swRoot a) 0 ⟨0, by decide⟩
    exact this _

end WTM
