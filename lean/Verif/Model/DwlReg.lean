import Verif.Model.DecimatedWavelets

/-!
# Model of the decimated wavelet regularizer in the primal-dual solver

`Regularizer_dwl` with the l1 norm (`Regularizer_l1dwl`; src/corrct/regularizers.py:880-1055): step sizes, dual and primal updates.
-/

namespace Verif
open Classical DataTerm

variable {L : ℕ} {κ : Type} [Fintype κ] [DecidableEq κ] {m : ℕ}

/-- An array as an image (zero outside its shape, where nothing is read). -/
noncomputable def toImg (n : κ → ℕ) (x : Arr (Idx n)) : Img κ := fun p =>
  if h : ∀ k, 0 ≤ p k ∧ p k < n k then x fun k => ⟨(p k).toNat, by have := h k; omega⟩ else 0

/-- An image as an array. -/
def ofImg (n : κ → ℕ) (x : Img κ) : Arr (Idx n) := fun p => x fun k => ((p k : ℕ) : ℤ)

/-- The coefficients: one array for each band. -/
abbrev DwlDual (mode : DwtMode) (L : ℕ) {level : ℕ} (axes : Fin m → κ) (n : κ → ℕ) := (b : Band m level) × Idx (dwtBandShape mode L axes n b)

/-- The number of a label: its letters as binary digits, the first the most significant (src/corrct/operators.py:511). -/
def labelNumber (l : Fin m → Bool) : ℕ := ∑ i, if l i then 2 ^ (m - 1 - (i : ℕ)) else 0

/-- `wlet_dec_filter_mult[t]` (src/corrct/operators.py:515-517): the label is number `t + 1`. -/
noncomputable def labelMult (lo hi : ℝ) (m t : ℕ) : ℝ := ∏ i : Fin m, if (t + 1).testBit (m - 1 - i) then hi else lo

/-- `dec_func_mult[c]` (src/corrct/regularizers.py:919-922), `lo` and `hi` being the l1 norms of the filters: the approximation, then the details from the coarsest
level to the finest. -/
noncomputable def decFuncMult (lo hi : ℝ) (m level c : ℕ) : ℝ :=
  if c = 0 then (lo ^ m) ^ level else labelMult lo hi m ((c - 1) % (2 ^ m - 1)) * (lo ^ m) ^ (level - 1 - (c - 1) / (2 ^ m - 1))

/-- `sigma` by band (src/corrct/regularizers.py:932-942): `dec_func_mult` itself, not its inverse; and `count` starts at 0, so the details get the entry of the
band before. -/
noncomputable def dwlSteps (w : FilterBank L) (m level : ℕ) : Band m level → ℝ
  | none => decFuncMult (l1norm w.decLo) (l1norm w.decHi) m level 0
  | some (i, l) => decFuncMult (l1norm w.decLo) (l1norm w.decHi) m level ((level - 1 - (i : ℕ)) * (2 ^ m - 1) + (labelNumber l.1 - 1))

/-- `tau` (src/corrct/regularizers.py:924-927, 945-947). -/
noncomputable def dwlTau (w : FilterBank L) (m level : ℕ) : ℝ :=
  ∑ b : Band m level, ((2 : ℝ) ^ m - 1 + if b = none then 1 else 0) / bandMult (l1norm w.recLo) (l1norm w.recHi) m level b

/-- `Regularizer_dwl` with its l1 norm, without update mask and with one weight, after `initialize_sigma_tau` (src/corrct/regularizers.py:908-963, 995-1047 and the
base class, :150-162, 188-210). With `min_approx=False` the dual of the approximation is set to zero. The defaults are the mode "constant" and
`min_approx=True`. In `apply_proximal_primal` the threshold is that of the first pixel (:1029). -/
noncomputable def dwlReg (w : FilterBank L) (mode : DwtMode) (minApprox : Bool) (level : ℕ) (axes : Fin m → κ) (n : κ → ℕ) (weight : ℝ) :
    Reg (Idx n) (Arr (DwlDual (level := level) mode L axes n)) where
  sigmaTau := fun _ _ => dwlTau w m level
  initDual := 0
  updateDual := fun dual x q =>
    if minApprox = false ∧ q.1 = none then 0
    else dual q + dwlSteps w m level q.1 * ofImg _ (dwtOp w mode level axes n (toImg n x) q.1) q.2
  proxDual := fun dual =>
    ((DataTerm.new .l1 none).assignData none (.array fun q : DwlDual (level := level) mode L axes n => dwlSteps w m level q.1)).proxDual dual (.scalar weight)
  updatePrimal := fun dual => (ofImg n (dwtOpT w mode level axes n fun b => toImg _ fun p => dual ⟨b, p⟩), dual)
  proxPrimal := fun x tau => if h : ∀ k, 0 < n k then
    ofImg n (dwlProxPrimal w mode minApprox level axes n (tau (fun k => ⟨0, h k⟩) * weight) (toImg n x)) else x

end Verif
