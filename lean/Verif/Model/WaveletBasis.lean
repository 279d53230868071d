import Verif.Model.Basic
import Mathlib.Order.Interval.Finset.Basic
import Mathlib.Data.Int.Interval

/-!
# Model of `create_basis_wavelet` of src/corrct/filters.py

Arrays of `n` values are functions of the coordinate `c = index - n // 2` (`np.fft.fftshift(np.fft.fftfreq(n, 1 / n))`), zero outside.
The decomposition filters of the wavelet are the argument.
-/

namespace Verif

namespace WaveletBasis

/-- `coords` (src/corrct/filters.py:223): the integers from `-(n // 2)` to `n - n // 2 - 1`. -/
noncomputable def coords (n : ℕ) : Finset ℤ := Finset.Ico (-((n / 2 : ℕ) : ℤ)) (n - (n / 2 : ℕ))

/-- `np.trim_zeros` (src/corrct/filters.py:203-204). -/
noncomputable def trimZeros (l : List ℝ) : List ℝ :=
  open Classical in ((l.dropWhile (· = 0)).reverse.dropWhile (· = 0)).reverse

/-- `np.pad(f, (pad_size_l, pad_size_u))` with `pad_size_u = (n - len) // 2` (src/corrct/filters.py:209-221). -/
noncomputable def padCentre (n : ℕ) (f : List ℝ) (c : ℤ) : ℝ :=
  let padL : ℕ := n - f.length - (n - f.length) / 2
  let i : ℤ := c + (n / 2 : ℕ) - padL
  if 0 ≤ i then f.getD i.toNat 0 else 0

/-- `interp1d(coords, f)((coords + 1 - n % 2) / 2)` (src/corrct/filters.py:230-231, 234-235): linear interpolation at whole and half coordinates. -/
noncomputable def dilate (n : ℕ) (f : ℤ → ℝ) (c : ℤ) : ℝ :=
  let t : ℤ := c + 1 - (n % 2 : ℕ)
  (f (t / 2) + f ((t + 1) / 2)) / 2

open Classical in
/-- `np.convolve(a, b, mode="same")` of two arrays of `n` values (src/corrct/filters.py:232, 236): index `k` of the result is index `k + (n - 1) // 2` of
the full convolution; in coordinates, `c = ca + cb` for odd `n` and `c = ca + cb + 1` for even `n`. -/
noncomputable def convSame (n : ℕ) (a b : ℤ → ℝ) (c : ℤ) : ℝ :=
  if c ∈ coords n then
    ∑ i ∈ coords n, a i * (if c - i - (1 - (n % 2 : ℕ)) ∈ coords n then b (c - i - (1 - (n % 2 : ℕ))) else 0)
  else 0

/-- One round of the loop (src/corrct/filters.py:227-236): the next details and approximation. -/
noncomputable def round (n : ℕ) (p : (ℤ → ℝ) × (ℤ → ℝ)) : (ℤ → ℝ) × (ℤ → ℝ) :=
  (convSame n (dilate n p.1) p.2, convSame n (dilate n p.2) p.2)

/-- Details and approximation after `l` rounds. -/
noncomputable def levels (n : ℕ) (lo hi : List ℝ) : ℕ → (ℤ → ℝ) × (ℤ → ℝ)
  | 0 => (padCentre n (trimZeros hi), padCentre n (trimZeros lo))
  | l + 1 => round n (levels n lo hi l)

/-- `basis_r` before the normalisation (src/corrct/filters.py:225-239): the details of all rounds (`range(level - 1)`), then the approximation. -/
noncomputable def rawRows (n : ℕ) (lo hi : List ℝ) (level : ℕ) : List (ℤ → ℝ) :=
  (List.range (level - 1 + 1)).map (fun l => (levels n lo hi l).1) ++ [(levels n lo hi (level - 1)).2]

/-- `np.fft.ifftshift` (src/corrct/filters.py:244): index `j` has the coordinate `j`, or `j - n` in the upper half. -/
def shifted (n : ℕ) (f : ℤ → ℝ) (j : Fin n) : ℝ := f (if (j : ℕ) < n - n / 2 then (j : ℕ) else (j : ℕ) - n)

/-- `create_basis_wavelet` with `norm=1.0` (src/corrct/filters.py:169-244). `none`: filters longer than the number of pixels (`np.pad` with a negative
width), or an interpolation outside of the coordinates (fewer than three pixels, with more than one level). A row of zeros would be NaN after the
division; its entries are zero here. -/
noncomputable def createBasis (n : ℕ) (lo hi : List ℝ) (level : ℕ) : Option (List (Fin n → ℝ)) :=
  if n < (trimZeros lo).length ∨ n < (trimZeros hi).length ∨ (1 < level ∧ n < 3) then none
  else some ((rawRows n lo hi level).map fun f j => shifted n f j / ∑ i, |shifted n f i|)

end WaveletBasis

end Verif
