import Mathlib.Tactic
import Mathlib.LinearAlgebra.Lagrange
import Verif.Model.Pac
import Verif.Props.Colloc

/-! C116: what the PAC model solves inside a carbon particle, and the units of what it reports. -/
set_option autoImplicit false
namespace WTM
noncomputable section
open Polynomial

variable {nd m : ℕ}

/-- The Laplacian of a function of the radius in a sphere. -/
def Spec.sphereLap (f : ℝ[X]) (x : ℝ) : ℝ :=
  (derivative (derivative f)).eval x + 2 / x * (derivative f).eval x

/-- Any values at distinct positive squared radii are those of an even polynomial of the degree for which the
collocation operators are exact. -/
theorem c116_profile {n : ℕ} {u : Fin n → ℝ} (hu : Function.Injective u) (hpos : ∀ i, 0 < u i) (v : Fin n → ℝ)
    (hn : 0 < n) : ∃ f : ℝ[X], Spec.Even f ∧ f.natDegree < 2 * n ∧ ∀ i, f.eval (symmX u i) = v i := by
  let g := Lagrange.interpolate Finset.univ u v
  have hsq : ∀ j, symmX u j ^ 2 = u j := fun j => Real.sq_sqrt (hpos j).le
  refine ⟨expand ℝ 2 g, ?_, ?_, fun i => ?_⟩
  · intro t; simp [expand_eval]
  · rw [natDegree_expand]
    have h1 : g.degree < (Finset.univ : Finset (Fin n)).card := Lagrange.degree_interpolate_lt _ (hu.injOn)
    rw [Finset.card_univ, Fintype.card_fin] at h1
    have h2 : g.natDegree < n := by
      by_cases hg : g = 0
      · rw [hg]; simpa using hn
      · exact (natDegree_lt_iff_degree_lt hg).2 h1
    omega
  · rw [expand_eval, hsq]
    exact Lagrange.eval_interpolate_at_node _ hu.injOn (Finset.mem_univ i)

/-- C116. At every radial point but the surface the load `Y = ε Cp + ρ q` changes by pore diffusion of the dissolved
part and surface diffusion of the rest, over the radius squared, where `fY` and `fC` are the profiles through the load
and through the pore concentrations (there are some: `c116_profile`). -/
theorem c116_bead {p : Pac m} {u : Fin (nd + 1) → ℝ} (hu : Function.Injective u) (hpos : ∀ i, 0 < u i)
    (W : Fin (nd + 1) → ℝ) {y : PacY nd m} {i : Fin m} {fY fC : ℝ[X]} (eY : Spec.Even fY)
    (dY : fY.natDegree < 2 * (nd + 1)) (eC : Spec.Even fC) (dC : fC.natDegree < 2 * (nd + 1))
    (hY : ∀ k, fY.eval (symmX u k) = y.1 k i) (hC : ∀ k, fC.eval (symmX u k) = p.cp y k i)
    {k : Fin (nd + 1)} (hk : k ≠ Fin.last nd) :
    (p.rhs (symmB 3 u) W y).1 k i =
      (p.porosity * (p.comp i).Dp * Spec.sphereLap fC (symmX u k) +
        (p.comp i).Ds * (Spec.sphereLap fY (symmX u k) - p.porosity * Spec.sphereLap fC (symmX u k))) /
        p.radius ^ 2 := by
  have h1 := (c16_radial hu hpos 3 eY dY k).2.1
  have h2 := (c16_radial hu hpos 3 eC dC k).2.1
  simp only [hY] at h1
  simp only [hC] at h2
  simp only [Pac.rhs, if_neg hk, Pac.rawY]
  rw [h1, h2]
  simp only [Spec.sphereLap]
  ring

/-- C116. The surface point closes the balance: the quadrature of all rates is the film flux into the bead over the
radius, the flux being `kf` times the difference of concentrations. -/
theorem c116_surface {p : Pac m} {B : Fin (nd + 1) → Fin (nd + 1) → ℝ} {W : Fin (nd + 1) → ℝ}
    (hW : W (Fin.last nd) ≠ 0) (y : PacY nd m) (i : Fin m) :
    ∑ k, W k * (p.rhs B W y).1 k i = (p.comp i).kf * (y.2 i - p.cp y (Fin.last nd) i) / p.radius := by
  rw [Fin.sum_univ_castSucc]
  have hne : ∀ l : Fin nd, l.castSucc ≠ Fin.last nd := fun l => (Fin.castSucc_lt_last l).ne
  simp only [Pac.rhs, if_neg (hne _), if_true, Pac.flux]
  rw [mul_div_cancel₀ _ hW]
  ring

/-- The pore concentration is in Freundlich equilibrium with the load, which counts as adsorbed; negative loads
count as zero. -/
theorem c116_pore {p : Pac m} (y : PacY nd m) (k : Fin (nd + 1)) (i : Fin m) (hK : 0 < (p.comp i).K)
    (hr : 0 < p.density) (hn : 0 < (p.comp i).xni) :
    (0 ≤ y.1 k i → y.1 k i = p.density * 1000 * ((p.comp i).K * p.cp y k i ^ (p.comp i).xni)) ∧
    (y.1 k i < 0 → p.cp y k i = 0) := by
  have hrho : 0 < p.rho := by unfold Pac.rho; positivity
  constructor
  · intro h
    have hq : 0 ≤ y.1 k i / p.rho / (p.comp i).K := by positivity
    simp only [Pac.cp, if_neg (not_lt.2 hq)]
    rw [← Real.rpow_mul hq, one_div, inv_mul_cancel₀ hn.ne', Real.rpow_one]
    unfold Pac.rho at hrho ⊢
    field_simp
  · intro h
    have hq : y.1 k i / p.rho / (p.comp i).K < 0 := div_neg_of_neg_of_pos (div_neg_of_neg_of_pos h hrho) hK
    simp only [Pac.cp, if_pos hq]
    exact Real.zero_rpow (by positivity)

/-- C116. Both run functions report each accepted time of the integration in minutes, `run_PAC_PSDM` with the
concentration in the units of the influent, `R_run_PAC` in ug/L; the integration is over the duration, from clean
carbon and the influent concentration. -/
theorem c116_output (ivp : Ivp nd m) (B : Fin (nd + 1) → Fin (nd + 1) → ℝ) (W : Fin (nd + 1) → ℝ) (p : Pac m)
    (n : ℕ) :
    (p.run ivp B W).length = (ivp (p.rhs B W) p.duration (fun _ _ => 0, fun _ => 1)).length ∧
    (p.runR ivp B W).length = (p.run ivp B W).length ∧
    ∀ s y, (ivp (p.rhs B W) p.duration (fun _ _ => 0, fun _ => 1))[n]? = some (s, y) →
      (∃ f, (p.run ivp B W)[n]? = some (s / 60, f) ∧ ∀ i, f i = (p.comp i).C0 * y.2 i) ∧
      ∃ g, (p.runR ivp B W)[n]? = some (s / 60, g) ∧ ∀ i, g i = (p.comp i).C0 * p.conv i * y.2 i := by
  refine ⟨by simp [Pac.run, pacInit], by simp [Pac.runR], fun s y h => ?_⟩
  have h' : (ivp (p.rhs B W) p.duration pacInit)[n]? = some (s, y) := h
  refine ⟨⟨_, by rw [Pac.run, List.getElem?_map, h']; rfl, fun i => rfl⟩,
    ⟨_, by rw [Pac.runR, Pac.run, List.getElem?_map, List.getElem?_map, h']; rfl, fun i => by simp only; ring⟩⟩

/-- Two radial points, at half the squared radius and the surface, meet the hypotheses. -/
example : Function.Injective ![(1 / 2 : ℝ), 1] ∧ ∀ i, 0 < ![(1 / 2 : ℝ), 1] i := by
  constructor
  · intro i j h; fin_cases i <;> fin_cases j <;> simp_all
  · intro i; fin_cases i <;> norm_num

example : ∃ f : ℝ[X], Spec.Even f ∧ f.natDegree < 2 * 2 ∧ ∀ i, f.eval (symmX ![(1 / 2 : ℝ), 1] i) = ![3, 5] i :=
  c116_profile (by intro i j h; fin_cases i <;> fin_cases j <;> simp_all) (by intro i; fin_cases i <;> norm_num) _
    (by norm_num)

end
end WTM
