import Verif.Props.Slices
import Verif.Props.Sart

/-! # C273 for SART -/

namespace Verif
open Classical DataTerm

variable {ν N Q Q' : Type} [Fintype ν] [Fintype N] {na nu : ℕ}

/-- The pixels with the projections numbered otherwise by `ρ`, and the pixels of the `k`-th one by `g k`. -/
def anglePixels (ρ : Fin na ≃ Fin na) (g : Fin na → (Fin nu ≃ Fin nu)) : Fin na × Fin nu ≃ Fin na × Fin nu where
  toFun p := (ρ p.1, g p.1 p.2)
  invFun p := (ρ.symm p.1, (g (ρ.symm p.1)).symm p.2)
  left_inv p := by simp
  right_inv p := by simp

/-- The projections of the volume with voxels, projections and pixels numbered otherwise. -/
def relabelAngles (f : ν ≃ N) (ρ : Fin na ≃ Fin na) (g : Fin na → (Fin nu ≃ Fin nu)) (A : AngleOp N na nu) : AngleOp ν na nu where
  fwd k x := A.fwd (ρ k) (x ∘ f.symm) ∘ g k
  adj k y := A.adj (ρ k) (y ∘ (g k).symm) ∘ f

omit [Fintype ν] [Fintype N] in
private theorem npMax_equiv {X Y : Type} (e : X ≃ Y) (h : Arr Y) : npMax (fun x => h (e x)) = npMax h := by
  unfold npMax
  exact e.iSup_comp

omit [Fintype ν] [Fintype N] in
private theorem fixSmall_equiv {X Y : Type} (e : X ≃ Y) (h : Arr Y) : fixSmall (fun x => h (e x)) = fun x => fixSmall h (e x) := by
  funext x
  unfold fixSmall
  rw [npMax_equiv]

private theorem sart_scaling (f : ν ≃ N) (ρ : Fin na ≃ Fin na) (g : Fin na → (Fin nu ≃ Fin nu)) (A : AngleOp N na nu) (rel : ℝ) (a : Args N (Fin na × Fin nu)) :
    sartScaling (relabelAngles f ρ g A) rel (cutArgs f (anglePixels ρ g) a) =
      (sartScaling A rel a).map fun p => (fun q => p.1 (anglePixels ρ g q), fun q => p.2 ((ρ.prodCongr f) q)) := by
  have hτ : (fun p : Fin na × ν => |(relabelAngles f ρ g A).adj p.1 (fun u => applyMask (cutArgs f (anglePixels ρ g) a).bMask (fun _ => 1) (p.1, u)) p.2|) =
      fun p => (fun q : Fin na × N => |A.adj q.1 (fun u => applyMask a.bMask (fun _ => 1) (q.1, u)) q.2|) ((ρ.prodCongr f) p) := by
    funext ⟨k, j⟩
    simp only [relabelAngles, Equiv.prodCongr_apply, Prod.map, Function.comp]
    congr 3
    funext u
    unfold applyMask cutArgs anglePixels
    cases a.bMask <;> simp
  have hσ : (fun p : Fin na × Fin nu => |(relabelAngles f ρ g A).fwd p.1 (applyMask (cutArgs f (anglePixels ρ g) a).xMask fun _ => 1) p.2|) =
      fun p => (fun q : Fin na × Fin nu => |A.fwd q.1 (applyMask a.xMask fun _ => 1) q.2|) (anglePixels ρ g p) := by
    funext ⟨k, u⟩
    simp only [relabelAngles, anglePixels, Equiv.coe_fn_mk, Function.comp]
    congr 3
    funext j
    unfold applyMask cutArgs
    cases a.xMask <;> simp
  have mτ := npMax_equiv (ρ.prodCongr f) (fun q : Fin na × N => |A.adj q.1 (fun u => applyMask a.bMask (fun _ => 1) (q.1, u)) q.2|)
  have mσ := npMax_equiv (anglePixels ρ g) (fun q : Fin na × Fin nu => |A.fwd q.1 (applyMask a.xMask fun _ => 1) q.2|)
  have sτ := fixSmall_equiv (ρ.prodCongr f) (fun q : Fin na × N => |A.adj q.1 (fun u => applyMask a.bMask (fun _ => 1) (q.1, u)) q.2|)
  have sσ := fixSmall_equiv (anglePixels ρ g) (fun q : Fin na × Fin nu => |A.fwd q.1 (applyMask a.xMask fun _ => 1) q.2|)
  unfold sartScaling
  dsimp only
  rw [hτ, hσ]
  rw [mτ, mσ, sτ, sσ]
  split_ifs <;> rfl

private theorem sart_row (f : ν ≃ N) (ρ : Fin na ≃ Fin na) (g : Fin na → (Fin nu ≃ Fin nu)) (A : AngleOp N na nu) (b : Fin na × Fin nu → ℝ)
    (a : Args N (Fin na × Fin nu)) (σ : Arr (Fin na × Fin nu)) (τ : Arr (Fin na × N)) (x : Arr N) (k : Fin na) :
    sartRow (relabelAngles f ρ g A) (b ∘ anglePixels ρ g) (cutArgs f (anglePixels ρ g) a) (fun q => σ (anglePixels ρ g q))
      (fun q => τ ((ρ.prodCongr f) q)) (x ∘ f) k = sartRow A b a σ τ x (ρ k) ∘ f := by
  have hx : (x ∘ f) ∘ f.symm = x := by funext j; simp
  unfold sartRow
  dsimp only
  rw [clipMask_cut f (anglePixels ρ g) a]
  refine congrArg (clipMask _) (funext fun j => ?_)
  simp only [relabelAngles, hx, Function.comp, Equiv.prodCongr_apply, Prod.map, anglePixels, Equiv.coe_fn_mk]
  congr 4
  funext u
  unfold cutArgs
  cases a.bMask <;> simp

/-- C273 for SART: numbering voxels, projections (also in the order they are gone through) and the pixels of each projection otherwise only renumbers the result. -/
theorem C273_sart (f : ν ≃ N) (ρ : Fin na ≃ Fin na) (g : Fin na → (Fin nu ≃ Fin nu)) (S : Solver N (Fin na × Fin nu) Q) (S' : Solver ν (Fin na × Fin nu) Q')
    (hrel : S'.relaxation = S.relaxation) (htol : S.tolerance = none) (htol' : S'.tolerance = none) (A : AngleOp N na nu) (b : Fin na × Fin nu → ℝ)
    (a : Args N (Fin na × Fin nu)) (rows : List (Fin na)) :
    ((sart S A b a (rows.map ρ)).map fun r => r.1 ∘ f) =
      (sart S' (relabelAngles f ρ g A) (b ∘ anglePixels ρ g) (cutArgs f (anglePixels ρ g) a) rows).map Prod.fst := by
  unfold sart
  rw [hrel, sart_scaling]
  cases hs : sartScaling A S.relaxation a with
  | error e => rfl
  | ok p =>
    obtain ⟨σ, τ⟩ := p
    simp only [Bind.bind, Except.bind, Except.map, htol, htol', Option.isSome_none, Bool.false_eq_true, false_and, if_false]
    refine congrArg Except.ok ?_
    refine forRange_rel (R := fun (s : XState N) (t : XState ν) => s.x ∘ f = t.x) ?_ ?_
    · show (a.x0.getD fun _ => 0) ∘ f = (a.x0.map (· ∘ f)).getD fun _ => 0
      cases a.x0 <;> rfl
    · intro k s t h
      refine ⟨?_, rfl⟩
      show ((rows.map ρ).foldl (sartRow A b a σ τ) s.x) ∘ f = rows.foldl _ t.x
      rw [← h]
      generalize s.x = x
      clear h
      induction rows generalizing x with
      | nil => rfl
      | cons r rs ih => rw [List.map_cons, List.foldl_cons, List.foldl_cons, sart_row, ih]

/-- Two projections of two pixels, one iteration with both; the two are numbered the other way round. -/
example : ∃ r, sart (Q := Unit) (ν := Fin 1) ⟨1, none, [], .new .l2 none, .new .l2 none, none⟩ (angleOp fun k (_ : Fin 2) _ => (k : ℕ) + 1)
      (fun p => (p.1 : ℕ)) { iterations := 1 } ([0, 1].map (Equiv.swap (0 : Fin 2) 1)) = .ok r ∧
    ((sart (Q := Unit) (ν := Fin 1) ⟨1, none, [], .new .l2 none, .new .l2 none, none⟩
      (relabelAngles (Equiv.refl _) (Equiv.swap 0 1) (fun _ => Equiv.refl _) (angleOp fun k (_ : Fin 2) _ => (k : ℕ) + 1))
      (((fun p => (p.1 : ℕ)) : Fin 2 × Fin 2 → ℝ) ∘ anglePixels (Equiv.swap 0 1) fun _ => Equiv.refl _)
      (cutArgs (Equiv.refl _) (anglePixels (Equiv.swap 0 1) fun _ => Equiv.refl _) { iterations := 1 }) [0, 1]).map Prod.fst) = .ok (r.1 ∘ Equiv.refl _) := by
  have h : ∃ r, sart (Q := Unit) (ν := Fin 1) ⟨1, none, [], .new .l2 none, .new .l2 none, none⟩ (angleOp fun k (_ : Fin 2) _ => (k : ℕ) + 1)
      (fun p => (p.1 : ℕ)) { iterations := 1 } ([0, 1].map (Equiv.swap (0 : Fin 2) 1)) = .ok r := by
    unfold sart sartScaling
    simp only [bind, Except.bind]
    rw [if_neg]
    · simp
    · push Not
      constructor
      · refine ne_of_gt (lt_of_lt_of_le ?_ (le_npMax _ (0, 0)))
        simp [angleOp, applyMask]
      · refine ne_of_gt (lt_of_lt_of_le ?_ (le_npMax _ (0, 0)))
        simp [angleOp, applyMask]
  obtain ⟨r, hr⟩ := h
  refine ⟨r, hr, ?_⟩
  rw [← C273_sart (S := ⟨1, none, [], .new .l2 none, .new .l2 none, none⟩) (hrel := rfl) (htol := rfl) (htol' := rfl), hr]
  rfl

end Verif
