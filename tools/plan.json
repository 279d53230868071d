{
"C01": "Masks as functions pixel→ℝ; `initBMasks` verbatim (Option arguments). Case analysis on 0/1 values.",
"C02": "Solvers as iteration over a state record with the data term's `compute_residual`; lemma: the update depends on b only through mask·(b−Ax). Induction on iterations incl. early stop decision. MLEM: negation witness.",
"C03": "Per-solver step ends with clip then mask; induction on iterations (last executed step).",
"C04": "Same step structure; mask multiplication is the last operation.",
"C05": "SolutionInfo modelled with list of residuals; loop modelled as a fuel recursion with break; induction.",
"C06": "Induction on iterations: residual is 0, clip/mask are identity.",
"C07": "Real non-negative matrix; weighted Cauchy–Schwarz gives Σσᵢ(Ax)ᵢ² ≤ Σ x²/τ; expand the square; projections onto box are non-expansive in diagonal norms.",
"C08": "Sign analysis of the multiplicative update, induction.",
"C09": "Exchange of sums.",
"C10": "Jensen / log-sum inequality per pixel (EM surrogate).",
"C11": "t-recursion with restart flag; induction; negation witness for momentum after restart.",
"C12": "Constructor as a decision function over an algebraic type of regularizers with their primal-prox behaviour.",
"C13": "Matrix/inner-product-space model; Cauchy–Schwarz for monotonicity, operator-norm bound.",
"C14": "Weighted Cauchy–Schwarz on matrices; stacked block rows for the regularizers.",
"C15": "Explicit heap of arrays, in-place `+=`/`*=` on references; frame lemma for operators that return fresh references, negation witness for identity operator.",
"C16": "Per-pixel real functions; conjugate functionals written in a small Spec file; optimality by completing squares / derivative-free inequalities (log inequality for KL).",
"C17": "As C16 with the primal functionals. Ball versions: negation witness.",
"C18": "Algebra on the per-pixel functions.",
"C19": "From the closed forms (1-Lipschitz clip/soft-threshold; KL via monotonicity of x ↦ x−sqrt).",
"C20": "Data term record with Option fields of scalar-or-array; index lists.",
"C21": "Element-wise functions.",
"C22": "Vector version with norms over Fin n.",
"C23": "Heap of norm objects + Python default-argument object; interleaving of calls. Negation for shared default.",
"C24": "Per-pixel real functions; negation for non-zero limits in dual form.",
"C25": "Per-pixel; optimality by cases.",
"C26": "Finite-difference stencils over ZMod n / zero padded; row and column absolute sums.",
"C27": "Operators as matrices / functions on Fin n → ℝ, summation by parts.",
"C28": "BaseTransform flag state machine; chains of .T as lists.",
"C29": "Nat arithmetic for padding, lists for packing.",
"C30": "Linear map applied to basis vectors.",
"C31": "Angle-wise backend maps with adjoint hypothesis; sums over angles, detectors.",
"C32": "Tasks write to disjoint output slots / futures collected in submission order; permutations of completion.",
"C33": "Discrete line sums, exp(−sum).",
"C34": "Lifecycle state machine with handle multiset, induction on call list.",
"C35": "Lists of Nat (shape tuples).",
"C36": "Vectors in Fin 3 → ℝ, trigonometric identities.",
"C37": "Rodrigues / axis rotation matrices on Fin 3 → ℝ.",
"C38": "Real algebra on three points.",
"C39": "Real algebra; lstsq as contract (exact solution of consistent full-rank system).",
"C40": "argsort as permutation contract.",
"C41": "Permutation given as parameter; array_split-like slicing on lists.",
"C42": "As C41.",
"C43": "Futures model: map from future to index, completion order an arbitrary permutation.",
"C44": "Residual array of SolutionInfo, negation witness with early stop.",
"C45": "Sums over Fin (b*m).",
"C46": "Radial bins with linear weights on lists.",
"C47": "Real algebra over segment index.",
"C48": "Lists/functions ℤ→ℝ with reflect/edge access; induction on iterations.",
"C49": "Finite sums; negation + corrected identity.",
"C50": "Cauchy–Schwarz over ring index sets with complex coefficients.",
"C51": "Nat/real log; Mathlib Nat.clog or the code's log2/ceil.",
"C52": "List of windows recursion; inner products.",
"C53": "Real multiplication groups.",
"C54": "Weighted averages over lists.",
"C55": "quadraticChar on ZMod p (Mathlib), character sums.",
"C56": "Nat primality with the code's trial divisors; negation for the omitted largest candidate.",
"C57": "List model of generated index grids.",
"C58": "Int ceil division."
}