import Verif.Lemmas.Solvers
import Verif.Props.DataTerms

/-! # Solving a problem part by part

`f k` and `g k` say which voxel (pixel) of the large problem a voxel (pixel) of its `k`-th part is. -/

namespace Verif
open Classical DataTerm

variable {N I ν ι κ Q' Q : Type}

/-- Every voxel and every pixel belongs to a part. -/
structure Cover (f : κ → ν → N) (g : κ → ι → I) : Prop where
  voxel : ∀ n, ∃ k j, f k j = n
  pixel : ∀ n, ∃ k i, g k i = n

/-- The operator acts on each part as `A` does, and so does its `absolute`. -/
structure OpCut (f : κ → ν → N) (g : κ → ι → I) (A' : Operator N I) (A : Operator ν ι) : Prop where
  fwd : ∀ k x, A'.fwd x ∘ g k = A.fwd (x ∘ f k)
  adj : ∀ k y, A'.adj y ∘ f k = A.adj (y ∘ g k)
  abs : (A'.abs = none ∧ A.abs = none) ∨ ∃ p' p, A'.abs = some p' ∧ A.abs = some p ∧ (∀ k x, p'.1 x ∘ g k = p.1 (x ∘ f k)) ∧
    ∀ k y, p'.2 y ∘ f k = p.2 (y ∘ g k)
  back : (A'.aliasBack = none ∧ A.aliasBack = none) ∨ ∃ p' p, A'.aliasBack = some p' ∧ A.aliasBack = some p ∧ ∀ k x, p' x ∘ g k = p (x ∘ f k)

/-- The regularizer acts on each part as `r` does; `c k` takes the dual variable of the `k`-th part. -/
structure RegCut (f : κ → ν → N) (c : κ → Q' → Q) (r' : Reg N Q') (r : Reg ν Q) : Prop where
  sigmaTau : ∀ k t, r'.sigmaTau t ∘ f k = r.sigmaTau (t ∘ f k)
  initDual : ∀ k, c k r'.initDual = r.initDual
  updateDual : ∀ k q x, c k (r'.updateDual q x) = r.updateDual (c k q) (x ∘ f k)
  proxDual : ∀ k q, c k (r'.proxDual q) = r.proxDual (c k q)
  updatePrimal1 : ∀ k q, (r'.updatePrimal q).1 ∘ f k = (r.updatePrimal (c k q)).1
  updatePrimal2 : ∀ k q, c k (r'.updatePrimal q).2 = (r.updatePrimal (c k q)).2
  proxPrimal : ∀ k x t, r'.proxPrimal x t ∘ f k = r.proxPrimal (x ∘ f k) (t ∘ f k)

/-- The arguments for the part given by `f` and `g`. -/
def cutArgs (f : ν → N) (g : ι → I) (a : Args N I) : Args ν ι where
  iterations := a.iterations
  x0 := a.x0.map (· ∘ f)
  lower := a.lower.map (·.slice f)
  upper := a.upper.map (·.slice f)
  xMask := a.xMask.map (· ∘ f)
  bMask := a.bMask.map (· ∘ g)
  bTestMask := a.bTestMask.map (· ∘ g)

/-- The same solver for the part: the data terms are sliced. -/
def cutSolver (g : ι → I) (S : Solver N I Q') (rs : List (Reg ν Q)) : Solver ν ι Q where
  relaxation := S.relaxation
  tolerance := S.tolerance
  regs := rs
  term := S.term.slice g
  termTest := S.termTest.slice g
  restartPeriod := S.restartPeriod

/-- The masks are the same on all parts. -/
structure SameMasks (f : κ → ν → N) (g : κ → ι → I) (a : Args N I) (xm : Option (Arr ν)) (bm tm : Option (Arr ι)) : Prop where
  x : ∀ k, a.xMask.map (· ∘ f k) = xm
  b : ∀ k, a.bMask.map (· ∘ g k) = bm
  test : ∀ k, a.bTestMask.map (· ∘ g k) = tm

/-! ## Step sizes -/

theorem cut_apply {α β γ : Type} {f : α → β} {u' : β → γ} {u : α → γ} (h : u' ∘ f = u) (j : α) : u' (f j) = u j := congrFun h j

theorem npMax_cut [Nonempty κ] {f : κ → ν → N} (hf : ∀ n, ∃ k j, f k j = n) {u' : Arr N} {u : Arr ν} (h : ∀ k, u' ∘ f k = u) : npMax u' = npMax u := by
  unfold npMax iSup
  congr 1
  ext v
  constructor
  · rintro ⟨n, rfl⟩
    obtain ⟨k, j, rfl⟩ := hf n
    exact ⟨j, (congrFun (h k) j).symm⟩
  · rintro ⟨j, rfl⟩
    exact ⟨f (Classical.arbitrary κ) j, congrFun (h _) j⟩

theorem fixSmall_cut [Nonempty κ] {f : κ → ν → N} (hf : ∀ n, ∃ k j, f k j = n) {u' : Arr N} {u : Arr ν} (h : ∀ k, u' ∘ f k = u) (k : κ) :
    fixSmall u' ∘ f k = fixSmall u := by
  funext j
  simp only [fixSmall, Function.comp, npMax_cut hf h]
  rw [show u' (f k j) = u j from congrFun (h k) j]

theorem foldTau_cut {f : κ → ν → N} {c : κ → Q' → Q} {rs' : List (Reg N Q')} {rs : List (Reg ν Q)} (h : List.Forall₂ (RegCut f c) rs' rs) (k : κ)
    (t : Arr N) : rs'.foldl (fun t r => fun j => t j + r.sigmaTau t j) t ∘ f k = rs.foldl (fun t r => fun j => t j + r.sigmaTau t j) (t ∘ f k) := by
  induction h generalizing t with
  | nil => rfl
  | cons hr _ ih =>
    rw [List.foldl_cons, List.foldl_cons, ih]
    congr 1
    funext j
    simp only [Function.comp]
    rw [cut_apply (hr.sigmaTau k t) j]

theorem applyMask_cut (g : ι → I) (m : Option (Arr I)) (r : Arr I) : applyMask m r ∘ g = applyMask (m.map (· ∘ g)) (r ∘ g) := by
  cases m <;> rfl

theorem scaling_cut [Nonempty κ] {f : κ → ν → N} {g : κ → ι → I} (hc : Cover f g) {c : κ → Q' → Q} {F' : Arr N → Arr I} {G' : Arr I → Arr N}
    {F : Arr ν → Arr ι} {G : Arr ι → Arr ν} (hF : ∀ k x, F' x ∘ g k = F (x ∘ f k)) (hG : ∀ k y, G' y ∘ f k = G (y ∘ g k)) {rs' : List (Reg N Q')}
    {rs : List (Reg ν Q)} (hr : List.Forall₂ (RegCut f c) rs' rs) (p q : ℝ) {xm' : Option (Arr N)} {xm : Option (Arr ν)} {bm' : Option (Arr I)}
    {bm : Option (Arr ι)} (hx : ∀ k, xm'.map (· ∘ f k) = xm) (hb : ∀ k, bm'.map (· ∘ g k) = bm) (k : κ) :
    (diagonalScaling F' G' rs' p q xm' bm').map (fun s => (s.1 ∘ g k, s.2 ∘ f k)) = diagonalScaling F G rs p q xm bm := by
  have ht : ∀ k, (rs'.foldl (fun t r => fun j => t j + r.sigmaTau t j) fun j => |G' (applyMask bm' fun _ => 1) j|) ∘ f k =
      rs.foldl (fun t r => fun j => t j + r.sigmaTau t j) fun j => |G (applyMask bm fun _ => 1) j| := by
    intro k
    rw [foldTau_cut hr]
    congr 1
    funext j
    simp only [Function.comp]
    rw [cut_apply (hG k _) j, applyMask_cut, hb]
    rfl
  have hs : ∀ k, (fun i => |F' (applyMask xm' fun _ => 1) i|) ∘ g k = fun i => |F (applyMask xm fun _ => 1) i| := by
    intro k
    funext i
    simp only [Function.comp]
    rw [cut_apply (hF k _) i, applyMask_cut, hx]
    rfl
  unfold diagonalScaling
  simp only [npMax_cut hc.voxel ht, npMax_cut hc.pixel hs]
  split_ifs
  · rfl
  · rfl
  · simp only [Except.map]
    congr 2
    · funext i
      simp only [Function.comp]
      rw [cut_apply (fixSmall_cut hc.pixel hs k) i]
    · funext j
      simp only [Function.comp]
      rw [cut_apply (fixSmall_cut hc.voxel ht k) j]

/-! ## Masks, limits, data terms -/

theorem initBMasks_cut (g : ι → I) (bm tm : Option (Arr I)) :
    initBMasks (bm.map (· ∘ g)) (tm.map (· ∘ g)) = ((initBMasks bm tm).1.map (· ∘ g), (initBMasks bm tm).2.map (· ∘ g)) := by
  cases bm <;> cases tm <;> rfl

theorem attr_slice_get (g : ι → I) (t : Attr I) (i : ι) : (t.slice g).get i = t.get (g i) := by cases t <;> rfl

theorem clipMask_cut (f : ν → N) (g : ι → I) (a : Args N I) (x : Arr N) : clipMask a x ∘ f = clipMask (cutArgs f g a) (x ∘ f) := by
  unfold clipMask
  rw [applyMask_cut]
  congr 1
  funext j
  simp only [Function.comp, cutArgs, Option.map_map]
  congr 1
  · cases a.lower <;> simp [attr_slice_get]
  · cases a.upper <;> simp [attr_slice_get]

theorem testTerm_cut (g : ι → I) (tm : Option (Arr I)) (term tt : DataTerm I) (b : Arr I) (s : Attr I) :
    (testTerm (tm.map (· ∘ g)) (term.slice g) (tt.slice g) (b ∘ g) (s.slice g)).map (fun _ => ()) = (testTerm tm term tt b s).map fun _ => () := by
  have e : ∀ t : DataTerm I, isArrayBg (t.slice g).background = isArrayBg t.background := fun t => by
    unfold DataTerm.slice isArrayBg
    rcases t.background with _ | (_ | _) <;> rfl
  unfold testTerm prepareTest
  simp only [Option.isSome_map, e]
  split_ifs <;> rfl

theorem residual_cut [Fintype I] [Fintype ι] (t : DataTerm I) (g : ι → I) (proj : Arr I) (m : Option (Arr I)) :
    t.residual proj m ∘ g = (t.slice g).residual (proj ∘ g) (m.map (· ∘ g)) := by
  funext i
  exact (Verif.Props.C20_slice_residual t g proj m i).symm

theorem dual_cut [Fintype I] [Fintype ι] (t : DataTerm I) (ht : t.Elementwise) (g : ι → I) (p proj : Arr I) :
    t.proxDual (t.updateDual p proj) ∘ g = (t.slice g).proxDual ((t.slice g).updateDual (p ∘ g) (proj ∘ g)) := by
  funext i
  exact (Verif.Props.C20_slice_dual t ht g p proj (.scalar 1) i).symm

theorem assign_cut [Fintype I] [Fintype ι] (t : DataTerm I) (g : ι → I) (b : Arr I) (s : Attr I) :
    (t.assignData (some (.array b)) s).slice g = (t.slice g).assignData (some (.array (b ∘ g))) (s.slice g) := Verif.Props.C20_slice_assign t g _ s

end Verif
