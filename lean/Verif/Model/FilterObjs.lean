import Verif.Model.Filters

/-!
# Model of the filter objects of `src/corrct/filters.py`: `Filter`, `FilterCustom`, `FilterFBP`
-/

namespace Verif

open ZMod Complex

/-- What a filter object keeps: the rows of `fbp_filter` (`np.array(…, ndmin=2)`, src/corrct/filters.py:346-372), `pad_mode` and
`use_rfft`. The entries may be complex, since the setters accept such filters. -/
structure FilterObj where
  rows : List (List ℂ)
  mode : RowPad
  rfft : Bool

/-- `Filter.__init__` (src/corrct/filters.py:248-282): only the real part of the given filter is kept, and `None` is `[1.0]`. -/
noncomputable def FilterObj.new (filt : Option (List (List ℂ))) (mode : RowPad) (rfft : Bool) : FilterObj where
  rows := match filt with
    | none => [[1]]
    | some f => f.map fun row => row.map fun z => ((z.re : ℝ) : ℂ)
  mode := mode
  rfft := rfft

/-- The getter of `filter_fourier` (src/corrct/filters.py:311-320): a copy. -/
def FilterObj.getFourier (o : FilterObj) : List (List ℂ) := o.rows

/-- The setter of `filter_fourier` (src/corrct/filters.py:338-340): a copy, with complex entries if there are any. -/
def FilterObj.setFourier (o : FilterObj) (f : List (List ℂ)) : FilterObj := { o with rows := f }

/-- The number of frequencies of padded rows of `P` values: `rfft` or `fft` (src/corrct/filters.py:299-303). -/
def numFreqs (rfft : Bool) (P : ℕ) : ℕ := if rfft then P / 2 + 1 else P

/-- The spectrum of a row of `P` values as an array (`to_fourier`, src/corrct/filters.py:299-303). -/
noncomputable def spectrumRow (rfft : Bool) (P : ℕ) [NeZero P] (k : ZMod P → ℝ) : List ℂ :=
  (List.range (numFreqs rfft P)).map (filterRealSet P k)

/-- The setter of `filter_real` (src/corrct/filters.py:334-336), for kernels of `P` values. -/
noncomputable def FilterObj.setReal (o : FilterObj) (P : ℕ) [NeZero P] (ks : List (ZMod P → ℝ)) : FilterObj :=
  { o with rows := ks.map (spectrumRow o.rfft P) }

/-- `num_filters` (src/corrct/filters.py:342-344). -/
def FilterObj.numFilters (o : FilterObj) : ℕ := o.rows.length

/-- A row of a filter as used in the product with the spectrum: NumPy broadcasts a single entry (src/corrct/filters.py:386, 392). -/
def rowEntry (row : List ℂ) (l : ℕ) : ℂ := if row.length = 1 then row.getD 0 0 else row.getD l 0

/-- `apply_filter` of one row of data, for a filter with complex entries (src/corrct/filters.py:346-393); as `applyFilterAt`. -/
noncomputable def applyFilterC (P : ℕ) [NeZero P] (rfft : Bool) (mode : RowPad) (N : ℕ) (F : ℕ → ℂ) (data : ℕ → ℝ) (j : ℕ) : ℝ :=
  toReal rfft P (fun l => dft1 P (fun i => padRoll mode P N data i.val) (l : ZMod P) * F l) j

/-- `apply_filter` on the data of `A` angles and `N` pixels (src/corrct/filters.py:346-393): one filtered sinogram for each filter; `none` is
the `ValueError` of a filter whose length is neither 1 nor the number of frequencies. With a single filter the result has no leading axis. -/
noncomputable def FilterObj.apply {A : Type} (o : FilterObj) (N : ℕ) (data : A → ℕ → ℝ) : Option (List (A → ℕ → ℝ)) :=
  if ∀ row ∈ o.rows, row.length = 1 ∨ row.length = numFreqs o.rfft (paddingSize N) then
    some (o.rows.map fun row a j => applyFilterC (paddingSize N) o.rfft o.mode N (rowEntry row) (data a) j)
  else none

/-- `FilterCustom.__call__` (src/corrct/filters.py:405-419, 471-472): `compute_filter` does nothing. -/
noncomputable def FilterObj.callCustom {A : Type} (o : FilterObj) (N : ℕ) (data : A → ℕ → ℝ) : FilterObj × Option (List (A → ℕ → ℝ)) :=
  (o, o.apply N data)

/-- `FilterFBP.FILTERS` (src/corrct/filters.py:480). -/
def fbpFilterNames : List String := ["ramp", "shepp-logan", "cosine", "hamming", "hann"]

/-- `FilterFBP.__init__` (src/corrct/filters.py:482-501): the stored name, `none` is the `ValueError` of unknown names; `lower` is
`str.lower`. -/
def fbpFilterName (lower : String → String) (name : String) : Option String :=
  if lower name ∈ fbpFilterNames then some (lower name) else none

/-- `FilterFBP.compute_filter` (src/corrct/filters.py:503-517): `kernel size name` is `_get_fourier_filter` of scikit-image, an array of
`size` values. The size of the second last axis is taken for the number of angles. -/
noncomputable def fbpRow (kernel : ℕ → String → ℕ → ℝ) (name : String) (rfft : Bool) (numAngles N : ℕ) : List ℂ :=
  (List.range (numFreqs rfft (paddingSize N))).map fun l => ((kernel (paddingSize N) name l * Real.pi / (2 * numAngles) : ℝ) : ℂ)

/-- `FilterFBP.__call__` (src/corrct/filters.py:405-419, 503-517): the filter is computed for the data, stored, and applied. -/
noncomputable def FilterObj.callFbp {A : Type} [Fintype A] (kernel : ℕ → String → ℕ → ℝ) (name : String) (o : FilterObj) (N : ℕ)
    (data : A → ℕ → ℝ) : FilterObj × Option (List (A → ℕ → ℝ)) :=
  let o' := { o with rows := [fbpRow kernel name o.rfft (Fintype.card A) N] }
  (o', o'.apply N data)

end Verif
