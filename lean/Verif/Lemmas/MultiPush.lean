import Verif.Lemmas.LocalPush
import Verif.Lemmas.MultiColumn
import Verif.Lemmas.Forced
import Verif.Lemmas.MultiBead

/-! Columns with many components near exhaustion, under influents that vary. -/
set_option autoImplicit false
namespace WTM
open BigOperators Set Topology Filter

section
variable {n r z : ℕ}

/-- What excesses of the influents add to the rates of the excesses of a column. -/
noncomputable def mbedPush (f : Fin n → ℝ) (κ : ℝ) (A : Fin (z + 1) → Fin (z + 1) → ℝ) (W : Fin (r + 1) → ℝ) :
    (Fin n → ℝ) →ₗ[ℝ] MBed (MBead n r) n z where
  toFun d := (fun i k => if k = Fin.last r then f i / W (Fin.last r) * d i else 0, fun w => (0, fun i => -(κ * A w.succ 0) * d i))
  map_add' d d' := by
    refine Prod.ext (funext fun i => funext fun k => ?_) (funext fun w => Prod.ext ?_ (funext fun i => ?_))
    · simp only [Prod.fst_add, Pi.add_apply]
      split <;> ring
    · simp
    · simp only [Prod.snd_add, Pi.add_apply]
      ring
  map_smul' a d := by
    refine Prod.ext (funext fun i => funext fun k => ?_) (funext fun w => Prod.ext ?_ (funext fun i => ?_))
    · simp only [Prod.smul_fst, Pi.smul_apply, smul_eq_mul, RingHom.id_apply]
      split <;> ring
    · simp
    · simp only [Prod.smul_snd, Pi.smul_apply, smul_eq_mul, RingHom.id_apply]
      ring

end

section
variable {X : Type} [NormedAddCommGroup X] [NormedSpace ℝ X] [FiniteDimensional ℝ X] {n N z : ℕ}
  {L : MPt X n →L[ℝ] MPt X n} {e : MPt X n →L[ℝ] MPt X n →L[ℝ] ℝ} {h : X →L[ℝ] (Fin n → ℝ)}
  {ℓ : (Fin n → ℝ) →L[ℝ] (Fin N → ℝ)} {lam : Fin N → ℝ} {κ : ℝ} {A : Fin (z + 1) → Fin (z + 1) → ℝ} {G : Fin z → Fin z → ℝ}

/-- Near exhaustion the rates are those of a column whose rates are Lipschitz everywhere. -/
theorem mbed_cut {F : MPt X n → MPt X n} (hs : ContDiffAt ℝ 1 F 0) (hF : HasFDerivAt F L 0) (h0 : F 0 = 0) :
    ∃ (F' : MPt X n → MPt X n) (ρ : ℝ), 0 < ρ ∧ HasFDerivAt F' L 0 ∧ F' 0 = 0 ∧ LocallyLipschitz (mbedRhs F' κ A : MBed X n z → MBed X n z) ∧
      ∀ v : MBed X n z, ‖v‖ ≤ ρ → mbedRhs F κ A v = mbedRhs F' κ A v := by
  obtain ⟨K, s, hsn, hK⟩ := hs.exists_lipschitzOnWith
  obtain ⟨F', hF', heq⟩ := hK.extend_finite_dimension
  obtain ⟨d, hd, hds⟩ := Metric.mem_nhds_iff.1 hsn
  set ρ := d / 2 with hρ
  have hρ0 : 0 < ρ := half_pos hd
  have hin : ∀ p : MPt X n, ‖p‖ ≤ ρ → F p = F' p := fun p hp => heq (hds (by
    rw [Metric.mem_ball, dist_zero_right]; linarith))
  have hD : HasFDerivAt F' L 0 := by
    refine hF.congr_of_eventuallyEq ?_
    filter_upwards [Metric.ball_mem_nhds (0 : MPt X n) hρ0] with p hp
    rw [Metric.mem_ball, dist_zero_right] at hp
    exact (hin p hp.le).symm
  have h0' : F' 0 = 0 := by rw [← hin 0 (by simpa using hρ0.le), h0]
  have hcong : ∀ v : MBed X n z, ‖v‖ ≤ ρ → mbedRhs F κ A v = mbedRhs F' κ A v := by
    intro v hv
    unfold mbedRhs
    rw [hin (v.1, 0) (norm_prod_le_iff.2 ⟨(norm_fst_le v).trans hv, by simpa using hρ0.le⟩)]
    refine Prod.ext rfl (funext fun w => ?_)
    simp only
    rw [hin _ ((norm_le_pi_norm v.2 w).trans ((norm_snd_le v).trans hv))]
  have hlip : LocallyLipschitz (mbedRhs F' κ A : MBed X n z → MBed X n z) := by
    have hl : mbedRhs F' κ A = fun v : MBed X n z => mbedCL L κ A v + ((F' (v.1, 0) - L (v.1, 0)).1, fun w => F' (v.2 w) - L (v.2 w)) := by
      funext v
      refine Prod.ext ?_ (funext fun w => ?_)
      · show (F' (v.1, 0)).1 = (L (v.1, 0)).1 + (F' (v.1, 0) - L (v.1, 0)).1
        rw [Prod.fst_sub]; abel
      · show F' (v.2 w) - ((0 : X), mflow κ A v.2 w) = mcolCL L κ A v.2 w + (F' (v.2 w) - L (v.2 w))
        rw [mcolCL_apply]; abel
    rw [hl]
    obtain ⟨K', hK'⟩ : ∃ K', LipschitzWith K' (fun p => F' p - L p) := ⟨_, hF'.sub L.lipschitz⟩
    refine LipschitzWith.locallyLipschitz (K := ‖mbedCL (z := z) L κ A‖₊ + K') ((mbedCL L κ A).lipschitz.add ?_)
    refine LipschitzWith.of_dist_le_mul fun u v => ?_
    have hb : ∀ p q : MPt X n, dist p q ≤ dist u v → dist (F' p - L p) (F' q - L q) ≤ K' * dist u v := fun p q hpq =>
      (hK'.dist_le_mul p q).trans (mul_le_mul_of_nonneg_left hpq K'.2)
    rw [Prod.dist_eq]
    refine max_le ?_ ((dist_pi_le_iff (by positivity)).2 fun w => ?_)
    · refine (le_trans (le_max_left _ _) (hb (u.1, 0) (v.1, 0) ?_) : dist (F' (u.1, 0) - L (u.1, 0)).1 (F' (v.1, 0) - L (v.1, 0)).1 ≤ _)
      rw [Prod.dist_eq, dist_self]
      exact max_le (le_max_left _ _) dist_nonneg
    · exact hb _ _ ((dist_le_pi_dist u.2 v.2 w).trans (le_max_right _ _))
  exact ⟨F', ρ, hρ0, hD, h0', hlip, hcong⟩

/-- From every state near the exhausted one there is a run for all time under every small push that varies continuously, and exactly one. -/
theorem mbed_run_in {F : MPt X n → MPt X n} (he : PtEnergy L e h ℓ lam) (hA : Spec.MovesAll A) (hG : AxialForm A G) (hκ : 0 < κ)
    (hs : ContDiffAt ℝ 1 F 0) (hF : HasFDerivAt F L 0) (h0 : F 0 = 0) {p : ℝ} (hp : 0 ≤ p) :
    ∃ δ : ℝ, 0 < δ ∧ ∀ b : ℝ → MBed X n z, Continuous b → (∀ t, ‖b t‖ ≤ p * δ) → ∀ v : MBed X n z, ‖v‖ ≤ δ → ∃ x : ℝ → MBed X n z, x 0 = v ∧
      (∀ T, ∀ t ∈ Icc 0 T, HasDerivWithinAt x (mbedRhs F κ A (x t) + b t) (Icc 0 T) t) ∧
      ∀ (T : ℝ) (x' : ℝ → MBed X n z), x' 0 = v → (∀ t ∈ Icc 0 T, HasDerivWithinAt x' (mbedRhs F κ A (x' t) + b t) (Icc 0 T) t) →
        ∀ t ∈ Icc 0 T, x' t = x t := by
  obtain ⟨F', ρ, hρ0, hD, h0', hlip, hcong⟩ := mbed_cut (z := z) (κ := κ) (A := A) hs hF h0
  obtain ⟨C, ω, hC, hω, hM⟩ := mbed_settle (z := z) he hA hG hκ
  have hstay : ∀ F1 : MPt X n → MPt X n, HasFDerivAt F1 L 0 → F1 0 = 0 → ∃ δ > 0, ∀ δ' : ℝ, 0 ≤ δ' → δ' ≤ δ → ∀ v : MBed X n z, ‖v‖ ≤ δ' →
      ∀ (T : ℝ) (b y : ℝ → MBed X n z), (∀ t, ‖b t‖ ≤ p * δ') → y 0 = v →
      (∀ t ∈ Icc 0 T, HasDerivWithinAt y (mbedRhs F1 κ A (y t) + b t) (Icc 0 T) t) → ∀ t ∈ Icc 0 T, ‖y t‖ ≤ ρ := by
    intro F1 hD1 h01
    obtain ⟨δ, K, ν, hδ, hK, hν, hx, -⟩ := near_waver hω hC hM (mbed_small (κ := κ) (A := A) hD1 h01) hp
    refine ⟨min δ (ρ / (2 * K)), lt_min hδ (by positivity), fun δ' hδ0 hδ' v hv T b y hb hy0 hy t ht => ?_⟩
    have h1 := hx y b T δ' hy hδ0 (fun s _ => hb s) (by rw [hy0]; exact hv.trans (hδ'.trans (min_le_left _ _))) (hδ'.trans (min_le_left _ _)) t ht
    have h2 : Real.exp (-(ν * t)) ≤ 1 := Real.exp_le_one_iff.2 (by have := mul_nonneg hν.le ht.1; linarith)
    have h3 : Real.exp (-(ν * t)) * ‖y 0‖ ≤ 1 * δ' := mul_le_mul h2 (by rw [hy0]; exact hv) (norm_nonneg _) (by norm_num)
    have h4 : K * (Real.exp (-(ν * t)) * ‖y 0‖ + δ') ≤ K * (2 * (ρ / (2 * K))) :=
      mul_le_mul_of_nonneg_left (by have := hδ'.trans (min_le_right _ _); linarith) hK.le
    have h5 : K * (2 * (ρ / (2 * K))) = ρ := by field_simp
    linarith
  obtain ⟨δ1, hδ1, hb1⟩ := hstay F' hD h0'
  obtain ⟨δ2, hδ2, hb2⟩ := hstay F hF h0
  have hδ0 : 0 < min δ1 δ2 := lt_min hδ1 hδ2
  refine ⟨min δ1 δ2, hδ0, fun b hb hbδ v hv => ?_⟩
  have hlip2 : LocallyLipschitz fun x : MBed X n z × MBed X n z => mbedRhs F' κ A x.2 + x.1 :=
    (hlip.comp (LipschitzWith.prod_snd.locallyLipschitz : LocallyLipschitz (Prod.snd : MBed X n z × MBed X n z → _))).add
      (LipschitzWith.prod_fst.locallyLipschitz)
  have huniq : ∀ (T : ℝ) (x x' : ℝ → MBed X n z), (∀ t ∈ Icc 0 T, HasDerivWithinAt x (mbedRhs F' κ A (x t) + b t) (Icc 0 T) t) →
      (∀ t ∈ Icc 0 T, HasDerivWithinAt x' (mbedRhs F' κ A (x' t) + b t) (Icc 0 T) t) → x 0 = x' 0 → ∀ t ∈ Icc 0 T, x t = x' t :=
    fun T x x' hx hx' h0 => unique_of_lip (c := b) (F := fun x : MBed X n z × MBed X n z => mbedRhs F' κ A x.2 + x.1) hb.continuousOn hx hx' h0
      (fun t _ => hlip2 (b t, x t))
  have hone : ∀ m : ℕ, ∃ y : ℝ → MBed X n z, y 0 = v ∧ ∀ t ∈ Icc 0 (m : ℝ), HasDerivWithinAt y (mbedRhs F' κ A (y t) + b t) (Icc 0 (m : ℝ)) t :=
    fun m => global_forced hlip2 (Nat.cast_nonneg m) hb.continuousOn (R := ρ) (fun T hT y hy0 hy =>
      hb1 _ hδ0.le (min_le_left _ _) v hv T b y hbδ hy0 hy T ⟨hT.1, le_rfl⟩)
  choose Y hY0 hY using hone
  have hcut : ∀ {S T : ℝ} {x : ℝ → MBed X n z}, T ≤ S → (∀ t ∈ Icc 0 S, HasDerivWithinAt x (mbedRhs F' κ A (x t) + b t) (Icc 0 S) t) →
      ∀ t ∈ Icc 0 T, HasDerivWithinAt x (mbedRhs F' κ A (x t) + b t) (Icc 0 T) t := fun hTS hx t ht =>
    (hx t ⟨ht.1, ht.2.trans hTS⟩).mono (Icc_subset_Icc_right hTS)
  have hag : ∀ (m : ℕ) (t : ℝ), 0 ≤ t → t ≤ m → Y ⌈t⌉₊ t = Y m t := by
    intro m t h0 hm
    have hle : ((⌈t⌉₊ : ℕ) : ℝ) ≤ m := by exact_mod_cast Nat.ceil_le.2 hm
    exact huniq _ _ _ (hY _) (hcut hle (hY m)) (by rw [hY0, hY0]) t ⟨h0, Nat.le_ceil t⟩
  have hsol : ∀ T, ∀ t ∈ Icc 0 T, HasDerivWithinAt (fun t => Y ⌈t⌉₊ t) (mbedRhs F' κ A (Y ⌈t⌉₊ t) + b t) (Icc 0 T) t := by
    intro T t ht
    have hm : ∀ s ∈ Icc 0 T, Y ⌈s⌉₊ s = Y ⌈T⌉₊ s := fun s hs => hag _ _ hs.1 (hs.2.trans (Nat.le_ceil T))
    have h1 := hcut (Nat.le_ceil T) (hY ⌈T⌉₊) t ht
    rw [hm t ht]
    exact h1.congr (fun s hs => hm s hs) (hm t ht)
  refine ⟨fun t => Y ⌈t⌉₊ t, hY0 _, fun T t ht => ?_, fun T x' h0 hx' => ?_⟩
  · have hbt := hb1 _ hδ0.le (min_le_left _ _) v hv T b (fun t => Y ⌈t⌉₊ t) hbδ (hY0 _) (hsol T) t ht
    beta_reduce at hbt ⊢
    rw [hcong _ hbt]
    exact hsol T t ht
  · refine huniq T x' _ (fun t ht => ?_) (hsol T) (by rw [h0, hY0])
    rw [← hcong _ (hb2 _ hδ0.le (min_le_right _ _) v hv T b x' hbδ h0 hx' t ht)]
    exact hx' t ht

end
end WTM
