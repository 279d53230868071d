import Verif.Model.DataTerms
import Verif.Lemmas.Prox

namespace Verif
open Verif.Spec

variable {ι κ : Type}

@[simp] theorem Attr.get_map (f : ℝ → ℝ) (a : Attr ι) (i : ι) : (a.map f).get i = f (a.get i) := by
  cases a <;> rfl

@[simp] theorem Attr.get_map₂ (f : ℝ → ℝ → ℝ) (a b : Attr ι) (i : ι) :
    (Attr.map₂ f a b).get i = f (a.get i) (b.get i) := by
  cases a <;> cases b <;> rfl

@[simp] theorem Attr.get_slice (g : κ → ι) (a : Attr ι) (k : κ) : (a.slice g).get k = a.get (g k) := by
  cases a <;> rfl

@[simp] theorem Attr.get_scalar (v : ℝ) (i : ι) : (Attr.scalar v : Attr ι).get i = v := rfl
@[simp] theorem Attr.get_array (v : Arr ι) (i : ι) : (Attr.array v : Attr ι).get i = v i := rfl

/-- Value of optional data or background at a pixel (absent means zero). -/
def optVal (o : Option (Attr ι)) (i : ι) : ℝ := match o with | some a => a.get i | none => 0

namespace DataTerm

theorem subSigmaData_assign (t : DataTerm ι) (hk : t.kind ≠ .kl) (data : Option (Attr ι)) (σ : Attr ι)
    (p : Arr ι) (i : ι) :
    (t.assignData data σ).subSigmaData p i = p i - σ.get i * optVal data i := by
  cases data with
  | none => simp [subSigmaData, assignData, optVal]
  | some d =>
    unfold subSigmaData assignData computeSigmaData
    cases hk' : t.kind <;> simp_all [optVal]

theorem updateDual_eq (t : DataTerm ι) (data : Option (Attr ι)) (σ : Attr ι) (p proj : Arr ι) (i : ι) :
    (t.assignData data σ).updateDual p proj i = p i + σ.get i * proj i + σ.get i * optVal t.background i := by
  simp only [updateDual, assignData, optVal]
  cases t.background <;> simp <;> ring

variable [Fintype ι]

theorem proxDual_l2 (bg data : Option (Attr ι)) (σ : Attr ι) (p : Arr ι) (i : ι) :
    ((new .l2 bg).assignData data σ).proxDual p (.scalar 1) i
      = (p i - σ.get i * optVal data i) * (1 / (1 + σ.get i)) := by
  have := subSigmaData_assign (new .l2 bg : DataTerm ι) (by simp [new]) data σ p i
  simp only [proxDual, assignData, new, computeSigma1] at this ⊢
  rw [this]; simp

theorem proxDual_wl2 (w : Attr ι) (bg data : Option (Attr ι)) (σ : Attr ι) (p : Arr ι) (i : ι) :
    ((new (.wl2 w) bg).assignData data σ).proxDual p (.scalar 1) i
      = (p i - σ.get i * optVal data i) *
        (if w.get i = 0 then 0 else 1 / (1 + σ.get i / w.get i)) := by
  have := subSigmaData_assign (new (.wl2 w) bg : DataTerm ι) (by simp [new]) data σ p i
  simp only [proxDual, assignData, new, computeSigma1] at this ⊢
  rw [this]; simp only [Attr.get_map₂]
  split_ifs <;> simp

theorem proxDual_l2b (e : Attr ι) (bg data : Option (Attr ι)) (σ : Attr ι) (p : Arr ι) (i : ι) :
    ((new (.l2b e) bg).assignData data σ).proxDual p (.scalar 1) i
      = softThreshold (p i - σ.get i * optVal data i) (σ.get i * Real.sqrt (e.get i))
          * (1 / (1 + σ.get i * e.get i)) := by
  have := subSigmaData_assign (new (.l2b e) bg : DataTerm ι) (by simp [new]) data σ p i
  simp only [proxDual, assignData, new, computeSigma1] at this ⊢
  rw [this]; simp

theorem proxDual_huber (e : Attr ι) (row) (bg data : Option (Attr ι)) (σ : Attr ι) (p : Arr ι) (i : ι) :
    ((new (.huber e none row) bg).assignData data σ).proxDual p (.scalar 1) i
      = (let d := (p i - σ.get i * optVal data i) * (1 / (1 + σ.get i * e.get i)); d / max 1 |d|) := by
  have := subSigmaData_assign (new (.huber e none row) bg : DataTerm ι) (by simp [new]) data σ p i
  simp only [proxDual, assignData, new, computeSigma1] at this ⊢
  rw [this]; simp

theorem proxDual_l1 (bg data : Option (Attr ι)) (σ w : Attr ι) (p : Arr ι) (i : ι) :
    ((new .l1 bg).assignData data σ).proxDual p w i
      = (let d := p i - σ.get i * optVal data i; d / max |d| (w.get i) * w.get i) := by
  have := subSigmaData_assign (new .l1 bg : DataTerm ι) (by simp [new]) data σ p i
  simp only [proxDual, assignData, new, computeSigma1, applyThreshold, innerNorm] at this ⊢
  rw [this]

theorem proxDual_l1b (e : Attr ι) (bg data : Option (Attr ι)) (σ w : Attr ι) (p : Arr ι) (i : ι) :
    ((new (.l1b e) bg).assignData data σ).proxDual p w i
      = (let d := softThreshold (p i - σ.get i * optVal data i) (e.get i);
          d / max |d| (w.get i) * w.get i) := by
  have := subSigmaData_assign (new (.l1b e) bg : DataTerm ι) (by simp [new]) data σ p i
  simp only [proxDual, assignData, new, computeSigma1, applyThreshold, innerNorm] at this ⊢
  rw [this]

theorem proxDual_kl (bg data : Option (Attr ι)) (σ : Attr ι) (p : Arr ι) (i : ι) :
    ((new .kl bg).assignData data σ).proxDual p (.scalar 1) i
      = (1 + p i - Real.sqrt ((p i - 1) ^ 2 + 4 * σ.get i * max (optVal data i) 0)) / 2 := by
  cases data with
  | none => simp [proxDual, assignData, new, computeSigmaData, optVal]
  | some d => simp [proxDual, assignData, new, computeSigmaData, optVal]

end DataTerm

/-! ### Uniqueness -/
namespace Spec

theorem IsProxConj.unique {F : Functional} {σ x p p' : ℝ} (h : IsProxConj F σ x p) (h' : IsProxConj F σ x p') :
    p = p' := by
  by_contra hne
  exact lt_asymm (h.2 p' (Ne.symm hne)) (h'.2 p hne)

theorem IsProx.unique {F : Functional} {τ x p p' : ℝ} (h : IsProx F τ x p) (h' : IsProx F τ x p') : p = p' := by
  by_contra hne
  exact lt_asymm (h.2 p' h'.1 (Ne.symm hne)) (h'.2 p h.1 hne)

end Spec

theorem softThreshold_nonexp (t : ℝ) (ht : 0 ≤ t) (x y : ℝ) :
    |softThreshold x t - softThreshold y t| ≤ |x - y| := by
  rw [abs_le]
  have hx := abs_le.mp (le_refl |x - y|)
  rcases Spec.tri x t with h | h | h <;> rcases Spec.tri y t with h' | h' | h' <;>
  first
  | rw [Spec.softThreshold_of_ge ht h]
  | rw [Spec.softThreshold_of_le ht h]
  | rw [Spec.softThreshold_of_abs h]
  all_goals
  first
  | rw [Spec.softThreshold_of_ge ht h']
  | rw [Spec.softThreshold_of_le ht h']
  | rw [Spec.softThreshold_of_abs h']
  all_goals
    try have a := abs_le.mp h
    try have b := abs_le.mp h'
    constructor <;> linarith

theorem ballProj_nonexp {w : ℝ} (hw : 0 < w) (x y : ℝ) :
    |x / max |x| w * w - y / max |y| w * w| ≤ |x - y| := by
  have hx := abs_le.mp (le_refl |x - y|)
  obtain ⟨c1, c2, c3⟩ := Spec.ballProj_cases (d := x) hw
  obtain ⟨d1, d2, d3⟩ := Spec.ballProj_cases (d := y) hw
  rw [abs_le]
  rcases Spec.tri x w with h | h | h <;> rcases Spec.tri y w with h' | h' | h' <;>
  first
  | rw [c1 h]
  | rw [c2 h]
  | rw [c3 h]
  all_goals
  first
  | rw [d1 h']
  | rw [d2 h']
  | rw [d3 h']
  all_goals
    try have a := abs_le.mp h
    try have b := abs_le.mp h'
    constructor <;> linarith

end Verif
