import Verif.Model.Solvers

/-! # Small specification vocabulary for the solver properties -/

namespace Verif
open Classical

variable {ν ι Q : Type}

/-- A mask with values 0 and 1 only. -/
def Binary {α : Type} (m : Arr α) : Prop := ∀ i, m i = 0 ∨ m i = 1

/-- Pixel `i` may be used for training: the user's mask does not exclude it and it is not a test pixel. -/
def Trains (a : Args ν ι) (i : ι) : Prop :=
  (∀ m, a.bMask = some m → m i ≠ 0) ∧ (∀ t, a.bTestMask = some t → t i ≠ 1)

/-- Two data sets that agree on all training pixels. -/
def AgreeOnTraining (a : Args ν ι) (b b' : Arr ι) : Prop := ∀ i, Trains a i → b i = b' i

/-- The volume is within the limits the user gave. -/
def WithinLimits (a : Args ν ι) (x : Arr ν) : Prop :=
  (∀ l, a.lower = some l → ∀ j, l.get j ≤ x j) ∧ (∀ u, a.upper = some u → ∀ j, x j ≤ u.get j)

/-- The volume is zero wherever the user's solution mask is zero. -/
def ZeroOutsideMask (a : Args ν ι) (x : Arr ν) : Prop := ∀ m, a.xMask = some m → ∀ j, m j = 0 → x j = 0

/-- Sensible limits: lower ≤ upper, and 0 is admissible where the solution mask (if any, binary) is 0. -/
structure SensibleLimits (a : Args ν ι) : Prop where
  ordered : ∀ l u, a.lower = some l → a.upper = some u → ∀ j, l.get j ≤ u.get j
  binary : ∀ m, a.xMask = some m → Binary m
  lowerZero : ∀ m l, a.xMask = some m → a.lower = some l → ∀ j, m j = 0 → l.get j ≤ 0
  upperZero : ∀ m u, a.xMask = some m → a.upper = some u → ∀ j, m j = 0 → 0 ≤ u.get j

/-- The volume a call starts from: the given one, or the default constant. -/
def startVolume (a : Args ν ι) (default : ℝ) : Arr ν := a.x0.getD fun _ => default

/-- What a user sees of a run, leaving the test-set residuals out. -/
def trainingView (r : Except Err (Arr ν × Info × Solver ν ι Q)) :
    Except Err (Arr ν × ℕ × Option ℝ × Option ℝ × List ℝ × ℕ) :=
  r.map fun p => (p.1, p.2.1.maxIterations, p.2.1.tolerance, p.2.1.residual0, p.2.1.residuals, p.2.1.iterations)

/-- The accounting contract of a solver run asked for at most `n` iterations with tolerance `tol`. -/
structure Accounted (n : ℕ) (tol : Option ℝ) (info : Info) : Prop where
  max : info.maxIterations = n
  bound : info.iterations ≤ n
  length : info.residuals.length = n
  lengthCv : info.residualsCv.length = n
  unusedZero : ∀ k, info.iterations ≤ k → ∀ v, info.residuals[k]? = some v → v = 0
  unusedZeroCv : ∀ k, info.iterations ≤ k → ∀ v, info.residualsCv[k]? = some v → v = 0
  earlyStop : info.iterations < n → 1 ≤ info.iterations ∧
    ∃ t v, tol = some t ∧ info.residuals[info.iterations - 1]? = some v ∧ v < t
  noMissedStop : ∀ t, tol = some t → ∀ k, k + 1 < info.iterations → ∀ v, info.residuals[k]? = some v → t ≤ v

end Verif

namespace Verif
open Classical
variable {ν ι Q : Type}

/-- The volume reproduces the data (projection plus background) on every training pixel. -/
def Reproduces (S : Solver ν ι Q) (A : Operator ν ι) (a : Args ν ι) (b : Arr ι) (x : Arr ν) : Prop :=
  ∀ i, Trains a i → S.term.addBackground (A.fwd x) i = b i

/-- The volume satisfies the limits and is unchanged by the solution mask. -/
def Admissible (a : Args ν ι) (x : Arr ν) : Prop :=
  WithinLimits a x ∧ ∀ m, a.xMask = some m → ∀ j, x j * m j = x j

end Verif

namespace Verif
open Classical
variable {ν ι Q : Type}

/-- Sizes for which the scaling rule of the solvers is meaningful: masks within [0,1] (solution mask 0/1), and row and
column sums of absolute values at most 10⁵ (the code replaces sums below 10⁻⁵ times the largest one by 1, which is an
enlargement only in that range). -/
structure SensibleScale [Fintype ν] [Fintype ι] (M : ι → ν → ℝ) (a : Args ν ι) : Prop where
  bMask : ∀ m, a.bMask = some m → ∀ i, 0 ≤ m i ∧ m i ≤ 1
  test : ∀ m, a.bTestMask = some m → ∀ i, 0 ≤ m i ∧ m i ≤ 1
  xMask : ∀ m, a.xMask = some m → Binary m
  rows : ∀ i, ∑ j, |M i j| ≤ 100000
  cols : ∀ j, ∑ i, |M i j| ≤ 100000

/-- The training weight of a pixel: user's mask times (1 - test mask), absent masks counting as 1 and 0. -/
noncomputable def trainWeight (a : Args ν ι) (i : ι) : ℝ :=
  (match a.bMask with | some m => m i | none => 1) * (1 - match a.bTestMask with | some t => t i | none => 0)

/-- Half the weighted sum of squared data misfits (projection plus background against data), with weights `s`. -/
noncomputable def misfit [Fintype ι] (S : Solver ν ι Q) (A : Operator ν ι) (b : Arr ι) (s : Arr ι) (x : Arr ν) : ℝ :=
  (∑ i, s i * (b i - S.term.addBackground (A.fwd x) i) ^ 2) / 2

/-- Weighted squared distance of two volumes. -/
noncomputable def dist2 [Fintype ν] (w x z : Arr ν) : ℝ := ∑ j, w j * (x j - z j) ^ 2

end Verif

namespace Verif
variable {ν ι Q : Type}

/-- `r.apply_proximal_primal(v, tau)` is, voxel by voxel, a minimiser of `tau g(y) + (y - v)²/2`. -/
def ProxOf (r : Reg ν Q) (g : ν → ℝ → ℝ) : Prop :=
  ∀ (v tau : Arr ν), (∀ j, 0 < tau j) → ∀ j y,
    tau j * g j (r.proxPrimal v tau j) + (r.proxPrimal v tau j - v j) ^ 2 / 2 ≤ tau j * g j y + (y - v j) ^ 2 / 2

/-- The solution mask as weights (1 everywhere without a mask). -/
noncomputable def volumeWeight (a : Args ν ι) (j : ν) : ℝ := match a.xMask with | some m => m j | none => 1

/-- Weights of the data: training weight over the sum of absolute values of the row (over the solution mask), that sum
being replaced by 1 where it is negligible. -/
def RowNormalized [Fintype ν] (M : ι → ν → ℝ) (a : Args ν ι) (s : Arr ι) : Prop :=
  ∀ i, ∃ R, 0 < R ∧ (R = ∑ j, |M i j| * volumeWeight a j ∨ R = 1) ∧ s i = trainWeight a i / R

/-- Weights of the volume: column sums of absolute values over the training data, replaced by 1 where negligible. -/
def ColumnWeights [Fintype ι] (M : ι → ν → ℝ) (a : Args ν ι) (w : Arr ν) : Prop :=
  ∀ j, 0 < w j ∧ (w j = ∑ i, |M i j| * trainWeight a i ∨ w j = 1)

end Verif
