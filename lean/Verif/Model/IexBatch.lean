import Verif.Model.Equil

/-! Batch ion-exchange models: `solve` and `diffun` of hsdmixbatch.py:113-318 and psdmixbatch.py:112-318.
States are `u : Fin (r+2) → Fin (p+1) → ℝ` (liquid, bead points, last = surface). Every ion has the same
`kL`, `Ds`, `Dp` here and there is no implicit reference ion. -/
set_option autoImplicit false
namespace WTM
noncomputable section
open BigOperators

variable {r p : ℕ}

/-- State of the batch models, hsdmixbatch.py:200. -/
abbrev BatchState (r p : ℕ) := Fin (r + 2) → Fin (p + 1) → ℝ

/-- Parameters of a batch run, hsdmixbatch.py:124-197, psdmixbatch.py:123-197. -/
structure BatchParams (r p : ℕ) where
  RHOP : ℝ
  Qm : ℝ
  EPOR : ℝ
  VR : ℝ
  VL : ℝ
  Ds : ℝ
  Dp : ℝ
  kL : ℝ
  rb : ℝ
  C0 : Fin (p + 1) → ℝ
  K : Fin (p + 1) → ℝ
  val : Fin (p + 1) → ℕ
  Br : Fin (r + 1) → Fin (r + 1) → ℝ
  Wr : Fin (r + 1) → ℝ

/-- Initial state, hsdmixbatch.py:148, 200-204 and the divalent seeding 232-236. `u0` is a view of `u`
(reshape of a contiguous array), so the seeding done after `u0` was taken still applies. -/
def batchInit (P : BatchParams r p) : BatchState r p :=
  let Q := P.RHOP * P.Qm
  fun a i =>
    if a = 0 then P.C0 i
    else if ∃ j, P.val j = 2 then
      let ndv : ℕ := (Finset.univ.filter (fun j => P.val j = 2)).card
      if i = 0 then Q - ndv * Q / 1e3 else if P.val i = 2 then Q / 1e3 else 0
    else if i = 0 then Q else 0

/-- Assembly, hsdmixbatch.py:262-288 (psdmixbatch.py:270-301): flux `J`, bead rates `dq`. -/
def batchAssemble (P : BatchParams r p) (J : Fin (p + 1) → ℝ) (dq : Fin (r + 1) → Fin (p + 1) → ℝ) :
    BatchState r p :=
  fun a i => Fin.cases (3 * P.VR / P.rb * J i / P.VL)
    (fun k => if k = Fin.last r then
        (-J i / P.rb - ∑ k' : Fin r, P.Wr k'.castSucc * dq k'.castSucc i) / P.Wr (Fin.last r)
      else dq k i) a

/-- `diffun` of the HSDM batch model, hsdmixbatch.py:247-288. `none` when the equilibrium formula divides
by zero. -/
def hsdmBatchRhs (P : BatchParams r p) (u : BatchState r p) : Option (BatchState r p) :=
  let CT := ∑ i, P.C0 i
  (ceqBatch P.K P.val (u (Fin.last (r + 1))) CT).map fun Ceq =>
    batchAssemble P (fun i => -P.kL * (u 0 i - Ceq i))
      (fun k i => P.Ds / P.rb ^ 2 * ∑ l, P.Br k l * u l.succ i)

/-- `diffun` of the PSDM batch model, psdmixbatch.py:247-302. -/
def psdmBatchRhs (P : BatchParams r p) (u : BatchState r p) : Option (BatchState r p) :=
  let CT := ∑ i, P.C0 i
  let q : Fin (r + 1) → Fin (p + 1) → ℝ := fun k i => u k.succ i / (1 - P.EPOR)
  if h : ∀ k, (ceqBatch P.K P.val (q k) CT).isSome then
    let Cpore := fun k => (ceqBatch P.K P.val (q k) CT).get (h k)
    let Ceq := Cpore (Fin.last r)
    some (batchAssemble P (fun i => -P.kL * (u 0 i - Ceq i))
      (fun k i => (P.EPOR * (P.Dp - P.Ds) * (∑ l, P.Br k l * Cpore l i) +
        P.Ds * ∑ l, P.Br k l * u l.succ i) / P.rb ^ 2))
  else none

end
end WTM
