import Verif.Model.SvdAxes

/-! # C153: the singular value operator restores what it decomposed -/

namespace Verif
open List

/-! ## Reshaping -/

theorem ravel_lt : ∀ {ns is : List ℕ}, InShape ns is → ravel ns is < ns.prod
  | [], [], _ => by simp [ravel]
  | n :: ns, i :: is, h => by
    have h1 := ravel_lt h.2
    simp only [ravel, prod_cons]
    have h2 : i + 1 ≤ n := h.1
    calc i * ns.prod + ravel ns is < i * ns.prod + ns.prod := by omega
      _ = (i + 1) * ns.prod := by ring
      _ ≤ n * ns.prod := Nat.mul_le_mul_right _ h2
  | [], _ :: _, h => h.elim
  | _ :: _, [], h => h.elim

theorem unravel_ravel : ∀ {ns is : List ℕ}, InShape ns is → unravel ns (ravel ns is) = is
  | [], [], _ => rfl
  | n :: ns, i :: is, h => by
    have h1 := ravel_lt h.2
    have hp : 0 < ns.prod := by omega
    simp only [ravel, unravel]
    rw [show i * ns.prod + ravel ns is = ravel ns is + ns.prod * i by ring, Nat.add_mul_div_left _ _ hp,
      Nat.div_eq_of_lt h1, zero_add, Nat.add_mul_mod_self_left, Nat.mod_eq_of_lt h1, unravel_ravel h.2]
  | [], _ :: _, h => h.elim
  | _ :: _, [], h => h.elim

theorem unravel_inShape : ∀ {ns : List ℕ} {f : ℕ}, f < ns.prod → InShape ns (unravel ns f)
  | [], _, _ => trivial
  | n :: ns, f, h => by
    rw [prod_cons] at h
    have hp : 0 < ns.prod := by
      rcases Nat.eq_zero_or_pos ns.prod with h0 | h0
      · rw [h0] at h; omega
      · exact h0
    exact ⟨Nat.div_lt_of_lt_mul (by rw [mul_comm]; exact h), unravel_inShape (Nat.mod_lt _ hp)⟩

private theorem ravel_unravel : ∀ {ns : List ℕ} {f : ℕ}, f < ns.prod → ravel ns (unravel ns f) = f
  | [], f, h => by simp at h; simp [ravel, h]
  | n :: ns, f, h => by
    rw [prod_cons] at h
    have hp : 0 < ns.prod := by
      rcases Nat.eq_zero_or_pos ns.prod with h0 | h0
      · rw [h0] at h; omega
      · exact h0
    simp only [unravel, ravel]
    rw [ravel_unravel (Nat.mod_lt _ hp)]
    have := Nat.div_add_mod f ns.prod
    rw [mul_comm]; exact this

theorem inShape_length : ∀ {ns is : List ℕ}, InShape ns is → ns.length = is.length
  | [], [], _ => rfl
  | _ :: _, _ :: _, h => by simp [inShape_length h.2]
  | [], _ :: _, h => h.elim
  | _ :: _, [], h => h.elim

theorem inShape_getD : ∀ {ns is : List ℕ}, InShape ns is ↔ ns.length = is.length ∧ ∀ a < ns.length, is.getD a 0 < ns.getD a 0
  | [], [] => by simp [InShape]
  | n :: ns, i :: is => by
    simp only [InShape, length_cons, inShape_getD (ns := ns) (is := is)]
    constructor
    · rintro ⟨h1, h2, h3⟩
      refine ⟨by omega, fun a ha => ?_⟩
      cases a with
      | zero => simpa using h1
      | succ a => simpa using h3 a (by omega)
    · rintro ⟨h1, h2⟩
      exact ⟨by simpa using h2 0 (by omega), by omega, fun a ha => by simpa using h2 (a + 1) (by omega)⟩
  | [], _ :: _ => by simp [InShape]
  | _ :: _, [] => by simp [InShape]

/-- The trailing pair of a multi-index. -/
private theorem inShape_append_two : ∀ {ns : List ℕ} {R K : ℕ} {p : List ℕ}, InShape (ns ++ [R, K]) p →
    p = p.dropLast.dropLast ++ [p.getD p.dropLast.dropLast.length 0, p.getD (p.dropLast.dropLast.length + 1) 0] ∧
      p.getD p.dropLast.dropLast.length 0 < R ∧ p.getD (p.dropLast.dropLast.length + 1) 0 < K ∧ InShape ns p.dropLast.dropLast
  | [], R, K, p, h => by
    match p, h with
    | [i, j], h => simp [InShape] at h; simp [h, InShape]
    | [], h => simp [InShape] at h
    | [_], h => simp [InShape] at h
    | _ :: _ :: _ :: _, h => simp [InShape] at h
  | n :: ns, R, K, p, h => by
    match p, h with
    | i :: is, h =>
      have h2 : InShape (ns ++ [R, K]) is := h.2
      have hl := inShape_length h2
      simp at hl
      obtain ⟨h3, h4, h5, h6⟩ := inShape_append_two h2
      have hne : is ≠ [] := by rintro rfl; simp at hl
      have hne2 : is.dropLast ≠ [] := by
        intro h0
        have := congrArg List.length h0
        simp at this; omega
      have e : (i :: is).dropLast.dropLast = i :: is.dropLast.dropLast := by
        rw [dropLast_cons_of_ne_nil hne, dropLast_cons_of_ne_nil hne2]
      rw [e]
      simp only [length_cons, getD_cons_succ, cons_append]
      exact ⟨by rw [← h3], h4, h5, h.1, h6⟩
    | [], h => exact h.elim

private theorem getD_of_lt {l : List ℕ} {a : ℕ} (h : a < l.length) : l.getD a 0 = l[a] := by simp [h]

/-! ## Transposing -/

private theorem fwd_perm {nd : ℕ} {rows cols : List ℕ} (hn : (rows ++ cols).Nodup) (hr : ∀ a ∈ rows ++ cols, a < nd) :
    svdFwd nd rows cols ~ range nd := by
  have h1 : (svdInvariant nd rows cols).Nodup := (nodup_range).filter _
  have h2 : (svdFwd nd rows cols).Nodup := by
    unfold svdFwd
    refine h1.append hn ?_
    intro a ha hb
    simp [svdInvariant] at ha
    simp at hb
    tauto
  refine (perm_ext_iff_of_nodup h2 nodup_range).2 fun a => ?_
  simp only [svdFwd, svdInvariant, mem_append, mem_filter, mem_range, decide_not, Bool.not_eq_true', decide_eq_false_iff_not, not_or]
  constructor
  · rintro (h | h)
    · exact h.1
    · exact hr a (by simpa using h)
  · intro h
    by_cases h3 : a ∈ rows ++ cols
    · right; simpa using h3
    · left; exact ⟨h, by simpa using h3⟩

/-- Sorting the indices of a permutation by value inverts it. -/
private theorem argsort_spec {nd : ℕ} {l : List ℕ} (hl : l ~ range nd) :
    (argsort l).Nodup ∧ (argsort l).length = nd ∧ ∀ a < nd, (argsort l).getD a 0 = l.idxOf a := by
  have hlen : l.length = nd := by simpa using hl.length_eq
  have hp : argsort l ~ range nd := by rw [← hlen]; exact mergeSort_perm _ _
  have hnd : l.Nodup := hl.nodup_iff.2 nodup_range
  have hs : (argsort l).Pairwise fun i j => l.getD i 0 ≤ l.getD j 0 := by
    have := pairwise_mergeSort (le := fun i j => decide (l.getD i 0 ≤ l.getD j 0))
      (by intro a b c h1 h2; simp only [decide_eq_true_eq] at *; omega)
      (by intro a b; simp only [Bool.or_eq_true, decide_eq_true_eq]; omega) (range l.length)
    exact this.imp (by intro a b h; simpa using h)
  have hmap : (argsort l).map (fun i => l.getD i 0) = range nd := by
    refine Perm.eq_of_pairwise (le := fun a b : ℕ => a ≤ b) (fun a b _ _ h1 h2 => le_antisymm h1 h2) ?_ ?_ ?_
    · exact pairwise_map.2 hs
    · exact pairwise_le_range
    · have h1 : (argsort l).map (fun i => l.getD i 0) ~ (range nd).map (fun i => l.getD i 0) := hp.map _
      refine h1.trans ?_
      have h2 : (range nd).map (fun i => l.getD i 0) = l := by
        refine ext_getElem (by simp [hlen]) fun i h3 h4 => ?_
        simp [h4]
      rw [h2]; exact hl
  refine ⟨hp.nodup_iff.2 nodup_range, by simpa using hp.length_eq, fun a ha => ?_⟩
  have hla : a < (argsort l).length := by rw [show (argsort l).length = nd by simpa using hp.length_eq]; exact ha
  have h1 : l.getD ((argsort l).getD a 0) 0 = a := by
    have := congrArg (fun L : List ℕ => L.getD a 0) hmap
    simpa [ha, hla] using this
  have h2 : (argsort l).getD a 0 < l.length := by
    have h3 : (argsort l).getD a 0 ∈ argsort l := by
      rw [getD_of_lt hla]; exact getElem_mem hla
    rw [hlen]
    simpa using hp.mem_iff.1 h3
  rw [getD_of_lt h2] at h1
  conv_rhs => rw [← h1]
  exact (hnd.idxOf_getElem _ h2).symm

private theorem idxOf_argsort {nd : ℕ} {l : List ℕ} (hl : l ~ range nd) {a : ℕ} (ha : a < nd) :
    (argsort l).idxOf (l.idxOf a) = a := by
  obtain ⟨h1, h2, h3⟩ := argsort_spec hl
  have hla : a < (argsort l).length := by omega
  rw [← h3 a ha, getD_of_lt hla]
  exact h1.idxOf_getElem a hla

/-! ## The round trip -/

private theorem bwd_shape_eq (x : NdL) (rows cols : List ℕ) :
    svdBwdShape x.shape rows cols = (x.transpose (svdFwd x.shape.length rows cols)).shape := by
  simp [svdBwdShape, NdL.transpose, svdFwd, sizesOf]

private theorem fwd_prod_eq (shape rows cols : List ℕ) : (svdFwdShape shape rows cols).prod = (svdBwdShape shape rows cols).prod := by
  simp [svdFwdShape, svdBwdShape]

private theorem rebuild_rescaled {r k q : ℕ} (rescale : Bool) {S : Svd r k q} {M : Fin r → Fin k → ℝ} (hS : S.Valid M) (i : Fin r)
    (j : Fin k) : inverseSvd (svdDirect rescale S).U (svdDirect rescale S).s (svdDirect rescale S).Vt i j = M i j := by
  rw [hS.2.2.2 i j]
  cases rescale
  · simp [svdDirect, inverseSvd]
  · simp only [svdDirect, inverseSvd, if_true]
    refine Finset.sum_congr rfl fun a _ => ?_
    have hr : (0 : ℝ) < r := by have := i.pos; exact_mod_cast this
    have hk : (0 : ℝ) < k := by have := j.pos; exact_mod_cast this
    rw [Real.sqrt_mul hk.le]
    have h1 : Real.sqrt r ≠ 0 := (Real.sqrt_pos.2 hr).ne'
    have h2 : Real.sqrt k ≠ 0 := (Real.sqrt_pos.2 hk).ne'
    field_simp

/-- C153. For every array, every choice of distinct row and column axes (negative ones count from the end), with and without
rescaling and for whatever decompositions the library returns: applying the transpose to the singular values just computed gives
back the array, in its shape. -/
theorem C153_svd_round_trip (rescale : Bool) (svd : (r k : ℕ) → (Fin r → Fin k → ℝ) → Svd r k (min r k))
    (x : NdL) (axesRows axesCols : List ℤ)
    (hn : (normAxes x.shape.length axesRows ++ normAxes x.shape.length axesCols).Nodup) (hd : 0 < x.shape.length)
    (hS : ∀ inv,
      InShape (sizesOf x.shape (svdInvariant x.shape.length (normAxes x.shape.length axesRows) (normAxes x.shape.length axesCols))) inv →
      let M := svdMatrix (normAxes x.shape.length axesRows) (normAxes x.shape.length axesCols) x inv; (svd _ _ M).Valid M) :
    let rows := normAxes x.shape.length axesRows
    let cols := normAxes x.shape.length axesCols
    let S := svdStack rescale svd rows cols x
    let y := svdUnstack x.shape rows cols S fun inv => (S inv).s
    y.shape = x.shape ∧ ∀ q, InShape x.shape q → y.val q = x.val q := by
  intro rows cols S y
  have hr : ∀ a ∈ rows ++ cols, a < x.shape.length := by
    intro a ha
    have h0 : (x.shape.length : ℤ) ≠ 0 := by omega
    have key : ∀ (l : List ℤ), a ∈ normAxes x.shape.length l → a < x.shape.length := by
      intro l hl
      simp only [normAxes, mem_map] at hl
      obtain ⟨b, _, rfl⟩ := hl
      have h1 := Int.emod_nonneg b h0
      have h2 := Int.emod_lt_of_pos b (show (0 : ℤ) < x.shape.length by omega)
      omega
    rcases mem_append.1 ha with h | h
    · exact key _ h
    · exact key _ h
  set nd := x.shape.length with hnd
  set fwd := svdFwd nd rows cols with hfwd
  have hperm : fwd ~ range nd := fwd_perm hn hr
  have hlen : fwd.length = nd := by simpa using hperm.length_eq
  obtain ⟨hbn, hbl, hbv⟩ := argsort_spec hperm
  have hfn : fwd.Nodup := hperm.nodup_iff.2 nodup_range
  have hidx : ∀ a < nd, fwd.idxOf a < nd := fun a ha => by
    have : a ∈ fwd := hperm.mem_iff.2 (by simpa using ha)
    have := idxOf_lt_length_of_mem this
    omega
  set T := x.transpose fwd with hT
  have hbw : svdBwdShape x.shape rows cols = T.shape := by rw [hT, hfwd, hnd]; exact bwd_shape_eq x rows cols
  have hTl : T.shape.length = nd := by simp [hT, NdL.transpose, hlen]
  -- the value of the reassembled stack
  have hy : ∀ p, InShape (svdFwdShape x.shape rows cols) p →
      (if h : p.getD p.dropLast.dropLast.length 0 < (sizesOf x.shape rows).prod ∧
            p.getD (p.dropLast.dropLast.length + 1) 0 < (sizesOf x.shape cols).prod then
          inverseSvd (S p.dropLast.dropLast).U (S p.dropLast.dropLast).s (S p.dropLast.dropLast).Vt
            ⟨p.getD p.dropLast.dropLast.length 0, h.1⟩ ⟨p.getD (p.dropLast.dropLast.length + 1) 0, h.2⟩
        else 0) = (T.reshape (svdFwdShape x.shape rows cols)).val p := by
    intro p hp
    obtain ⟨h1, h2, h3, h4⟩ := inShape_append_two hp
    rw [dif_pos ⟨h2, h3⟩]
    show inverseSvd (svdDirect rescale _).U (svdDirect rescale _).s (svdDirect rescale _).Vt _ _ = _
    rw [rebuild_rescaled rescale (hS p.dropLast.dropLast h4)]
    show NdL.val _ (_ ++ [_, _]) = _
    simp only
    rw [← h1]
  -- the value after reshaping back
  have hz : ∀ q, InShape T.shape q →
      (NdL.reshape (svdBwdShape x.shape rows cols) ⟨svdFwdShape x.shape rows cols, fun p =>
        if h : p.getD p.dropLast.dropLast.length 0 < (sizesOf x.shape rows).prod ∧
            p.getD (p.dropLast.dropLast.length + 1) 0 < (sizesOf x.shape cols).prod then
          inverseSvd (S p.dropLast.dropLast).U (S p.dropLast.dropLast).s (S p.dropLast.dropLast).Vt
            ⟨p.getD p.dropLast.dropLast.length 0, h.1⟩ ⟨p.getD (p.dropLast.dropLast.length + 1) 0, h.2⟩
        else 0⟩).val q = T.val q := by
    intro q hq
    have hlt : ravel (svdBwdShape x.shape rows cols) q < (svdFwdShape x.shape rows cols).prod := by
      rw [fwd_prod_eq, hbw]; exact ravel_lt hq
    simp only [NdL.reshape]
    rw [hy _ (unravel_inShape hlt)]
    simp only [NdL.reshape]
    rw [ravel_unravel hlt, hbw, unravel_ravel hq]
  have hyshape : y.shape = x.shape := by
    show (argsort fwd).map (fun a => (svdBwdShape x.shape rows cols).getD a 0) = x.shape
    rw [hbw]
    refine ext_getElem (by simp [hbl]; omega) fun a h1 h2 => ?_
    have ha : a < nd := h2
    have hla : a < (argsort fwd).length := by omega
    have e : (argsort fwd)[a] = fwd.idxOf a := by rw [← hbv a ha, getD_of_lt hla]
    have hm : a ∈ fwd := hperm.mem_iff.2 (by simpa using ha)
    have hi : fwd.idxOf a < fwd.length := idxOf_lt_length_of_mem hm
    have hi' : fwd.idxOf a < T.shape.length := by rw [hTl]; exact hidx a ha
    simp only [getElem_map, e]
    rw [getD_of_lt hi']
    simp only [hT, NdL.transpose, getElem_map, getElem_idxOf hi]
    exact getD_of_lt h2
  refine ⟨hyshape, fun q hq => ?_⟩
  obtain ⟨hq1, hq2⟩ := inShape_getD.1 hq
  -- the multi-index of the reshaped array
  have hzl : (svdBwdShape x.shape rows cols).length = nd := by rw [hbw, hTl]
  simp only [y, svdUnstack, NdL.transpose]
  rw [show (NdL.reshape (svdBwdShape x.shape rows cols) _).shape.length = nd from hzl]
  have hbi : ∀ a < nd, (argsort fwd).idxOf a < nd := by
    intro a ha
    have hm : a ∈ argsort fwd := by
      have : argsort fwd ~ range nd := by
        have := mergeSort_perm (range fwd.length) fun i j => decide (fwd.getD i 0 ≤ fwd.getD j 0)
        rw [hlen] at this
        unfold argsort; rw [hlen]; exact this
      exact this.mem_iff.2 (by simpa using ha)
    have := idxOf_lt_length_of_mem hm
    omega
  have hfwdidx : ∀ a, (h : a < nd) → fwd.getD a 0 = (argsort fwd).idxOf a := by
    intro a ha
    have h1 : a < fwd.length := by omega
    have h2 : fwd[a] < nd := by have := hperm.mem_iff.1 (getElem_mem h1); simpa using this
    have h3 := idxOf_argsort hperm h2
    rw [hfn.idxOf_getElem a h1] at h3
    rw [getD_of_lt h1, h3]
  have hvalid : InShape T.shape ((range nd).map fun a => q.getD ((argsort fwd).idxOf a) 0) := by
    rw [inShape_getD]
    refine ⟨by simp [hTl], fun a ha => ?_⟩
    rw [hTl] at ha
    have h1 : ((range nd).map fun a => q.getD ((argsort fwd).idxOf a) 0).getD a 0 = q.getD ((argsort fwd).idxOf a) 0 := by
      simp [ha]
    have h2 : T.shape.getD a 0 = x.shape.getD (fwd.getD a 0) 0 := by
      have h3 : a < fwd.length := by omega
      simp [hT, NdL.transpose, h3]
    rw [h1, h2, hfwdidx a ha]
    exact hq2 _ (hbi a ha)
  rw [hz _ hvalid]
  show x.val ((range x.shape.length).map fun a => ((range nd).map fun a => q.getD ((argsort fwd).idxOf a) 0).getD (fwd.idxOf a) 0) = x.val q
  congr 1
  rw [← hnd]
  refine ext_getElem (by simp; omega) fun a h1 h2 => ?_
  have ha : a < nd := by simpa using h1
  have hi := hidx a ha
  simp only [getElem_map, getElem_range]
  have h3 : ((range nd).map fun a => q.getD ((argsort fwd).idxOf a) 0).getD (fwd.idxOf a) 0
      = q.getD ((argsort fwd).idxOf (fwd.idxOf a)) 0 := by simp [hi]
  rw [h3, idxOf_argsort hperm ha, getD_of_lt h2]

private theorem one_by_one (r k : ℕ) (hr : r = 1) (hk : k = 1) (M : Fin r → Fin k → ℝ) (hM : ∀ i j, 0 ≤ M i j) :
    (⟨fun _ _ => 1, fun _ => if h : 0 < r ∧ 0 < k then M ⟨0, h.1⟩ ⟨0, h.2⟩ else 0, fun _ _ => 1⟩ : Svd r k (min r k)).Valid M := by
  subst hr hk
  have hs : Subsingleton (Fin (min 1 1)) := inferInstanceAs (Subsingleton (Fin 1))
  have hc : ∀ f : Fin (min 1 1) → ℝ, ∑ a, f a = f ⟨0, by decide⟩ := fun f => Fintype.sum_subsingleton f _
  refine ⟨?_, ?_, ?_, ?_⟩
  · intro a b; simp [Subsingleton.elim a b]
  · intro a b; simp [Subsingleton.elim a b]
  · intro a; simpa using hM 0 0
  · intro i j
    rw [hc]
    simp [Subsingleton.elim i 0, Subsingleton.elim j 0]

/-- Non-vacuity: a `2 × 1 × 1` array whose second axis is the row axis and whose last is the column axis: two `1 × 1` matrices. -/
example : ∃ svd : (r k : ℕ) → (Fin r → Fin k → ℝ) → Svd r k (min r k), ∀ inv, InShape [2] inv →
    let M := svdMatrix (normAxes 3 [1]) (normAxes 3 [-1]) ⟨[2, 1, 1], fun q => q.getD 0 0 + 1⟩ inv; (svd _ _ M).Valid M := by
  refine ⟨fun r k M => ⟨fun _ _ => 1, fun _ => if h : 0 < r ∧ 0 < k then M ⟨0, h.1⟩ ⟨0, h.2⟩ else 0, fun _ _ => 1⟩, fun inv hinv => ?_⟩
  refine one_by_one _ _ (by decide) (by decide) _ fun i j => ?_
  simp only [svdMatrix, NdL.reshape, NdL.transpose]
  positivity

/-! ## C154: when the transpose was taken -/

/-- C154. The transpose taken after the operator was applied restores the matrix. -/
theorem C154_transpose_after_partial {r k q : ℕ} (rescale : Bool) (svd : (Fin r → Fin k → ℝ) → Svd r k q) (op : SvdObj r k q)
    (x : Fin r → Fin k → ℝ) (hS : (svd x).Valid x) :
    (op.call rescale svd x).1.adjoint (op.call rescale svd x).2 = some x := by
  simp only [SvdObj.call, SvdObj.adjoint, Option.map_some]
  congr 1
  funext i j
  exact rebuild_rescaled rescale hS i j

/-- C154. The transpose works on the singular values it is given, not on the stored ones: multiplied by a factor each, they give the
volume of the same vectors with those values. -/
theorem C154_given_values_partial {r k q : ℕ} (rescale : Bool) (svd : (Fin r → Fin k → ℝ) → Svd r k q) (op : SvdObj r k q)
    (x : Fin r → Fin k → ℝ) (w : Fin q → ℝ) :
    (op.call rescale svd x).1.adjoint (fun a => w a * (op.call rescale svd x).2 a) =
      some fun i j => ∑ a, w a * ((svd x).U i a * ((svd x).s a * (svd x).Vt a j)) := by
  simp only [SvdObj.call, SvdObj.adjoint, Option.map_some]
  congr 1
  funext i j
  cases rescale
  · simp only [svdDirect, inverseSvd, Bool.false_eq_true, if_false]
    exact Finset.sum_congr rfl fun a _ => by ring
  · simp only [svdDirect, inverseSvd, if_true]
    refine Finset.sum_congr rfl fun a _ => ?_
    have hr : (0 : ℝ) < r := by have := i.pos; exact_mod_cast this
    have hk : (0 : ℝ) < k := by have := j.pos; exact_mod_cast this
    rw [Real.sqrt_mul hk.le]
    have h1 : Real.sqrt r ≠ 0 := (Real.sqrt_pos.2 hr).ne'
    have h2 : Real.sqrt k ≠ 0 := (Real.sqrt_pos.2 hk).ne'
    field_simp

/-- C154 is violated: the transpose of a new operator, taken before the operator was applied, fails (`op.T` is a copy). And one taken
after the operator was applied to something else restores with the other's vectors. -/
theorem C154_transpose_before_violated :
    (¬ ∀ (rescale : Bool) (svd : (Fin 1 → Fin 1 → ℝ) → Svd 1 1 1) (x : Fin 1 → Fin 1 → ℝ) (op opT : SvdObj 1 1 1), (svd x).Valid x →
      opT = op → opT.adjoint (op.call rescale svd x).2 = some x) ∧
    ¬ ∀ (svd : (Fin 1 → Fin 1 → ℝ) → Svd 1 1 1) (x x' : Fin 1 → Fin 1 → ℝ) (op : SvdObj 1 1 1), (svd x).Valid x → (svd x').Valid x' →
      (op.call false svd x').1.adjoint (op.call false svd x).2 = some x := by
  constructor
  · intro h
    have := h false (fun _ => ⟨fun _ _ => 1, fun _ => 1, fun _ _ => 1⟩) (fun _ _ => 1) none none (by
      refine ⟨?_, ?_, ?_, ?_⟩ <;> intros <;> simp <;> exact Subsingleton.elim _ _) rfl
    simp [SvdObj.adjoint] at this
  · intro h
    have := h (fun M => ⟨fun _ _ => if M 0 0 < 0 then -1 else 1, fun _ => 1, fun _ _ => 1⟩) (fun _ _ => 1) (fun _ _ => -1) none (by
      refine ⟨?_, ?_, ?_, ?_⟩ <;> intros <;> norm_num <;> exact Subsingleton.elim _ _) (by
      refine ⟨?_, ?_, ?_, ?_⟩ <;> intros <;> norm_num <;> exact Subsingleton.elim _ _)
    simp only [SvdObj.adjoint, SvdObj.call, svdDirect, Option.map_some, Option.some.injEq, Bool.false_eq_true, if_false] at this
    have h0 := congrFun (congrFun this 0) 0
    norm_num [inverseSvd] at h0

end Verif
