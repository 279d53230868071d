import Verif.Model.Testing
import Verif.Spec.Operators
import Mathlib.Analysis.InnerProductSpace.PiL2

/-!
# Noise and synthetic sinograms: C185-C188, and C118 (Compton)
-/

namespace Verif

open Finset

/-! ## C118: Compton -/

/-- **C118 (Compton cross-sections).** A compound known to the tables has the tabulated differential Compton cross-section; any other one the average of its elements:
that of its element if there is only one, and between any bounds of them if mass fractions are non-negative and sum to 1. -/
theorem C118_compton_cross_section (t : ComptonTables) (c : Compound) (energy angle : ℝ) :
    (∀ v, t.dcsCompound c.name energy angle = some v → comptonCs t c energy angle = v) ∧
    (t.dcsCompound c.name energy angle = none →
      (∀ el, c.elements = [el] → c.massFractions = [1] → comptonCs t c energy angle = t.dcsElement el energy angle) ∧
      (∀ lo hi, c.elements.length = c.massFractions.length → (∀ w ∈ c.massFractions, 0 ≤ w) → c.massFractions.sum = 1 →
        (∀ el ∈ c.elements, lo ≤ t.dcsElement el energy angle ∧ t.dcsElement el energy angle ≤ hi) →
        lo ≤ comptonCs t c energy angle ∧ comptonCs t c energy angle ≤ hi)) := by
  refine ⟨fun v hv => by unfold comptonCs; rw [hv]; rfl, fun hn => ⟨fun el h1 h2 => ?_, fun lo hi hlen hw hs hb => ?_⟩⟩
  · unfold comptonCs
    rw [hn, h1, h2]
    simp
  · unfold comptonCs
    rw [hn, Option.getD_none]
    have key : ∀ (els : List ℕ) (ws : List ℝ), els.length = ws.length → (∀ w ∈ ws, 0 ≤ w) →
        (∀ el ∈ els, lo ≤ t.dcsElement el energy angle ∧ t.dcsElement el energy angle ≤ hi) →
        lo * ws.sum ≤ (List.zipWith (fun el w => t.dcsElement el energy angle * w) els ws).sum ∧
          (List.zipWith (fun el w => t.dcsElement el energy angle * w) els ws).sum ≤ hi * ws.sum := by
      intro els
      induction els with
      | nil => intro ws h _ _; have : ws = [] := List.length_eq_zero_iff.1 h.symm; subst this; simp
      | cons el els ih =>
        intro ws h hw hb
        cases ws with
        | nil => simp at h
        | cons w ws =>
          obtain ⟨i1, i2⟩ := ih ws (by simpa using h) (fun w hm => hw w (by simp [hm])) (fun e hm => hb e (by simp [hm]))
          obtain ⟨b1, b2⟩ := hb el (by simp)
          have w0 := hw w (by simp)
          simp only [List.zipWith_cons_cons, List.sum_cons]
          constructor <;> nlinarith
    have := key c.elements c.massFractions hlen hw hb
    rw [hs, mul_one, mul_one] at this
    exact this

/-- **C118 (Compton).** The Compton production does not depend on the order of the materials, adds over parts of the list, is zero in empty
voxels and non-negative if the tables, densities, fractions and voxel size are; with a detector it is the part given by the detector's solid angle of
the production without one at the same angle; the energy depends on the incoming energy and the angle only; and the call fails if and only
if neither an angle nor a detector is given. -/
theorem C118_compton {V : Type} (t : ComptonTables) (voxel energy : ℝ) (ms : List (Material V)) (angle : Option ℝ)
    (det : Option DetectorXrf) :
    (comptonScattering t ms voxel energy angle det = none ↔ angle = none ∧ det = none) ∧
    (∀ ms', ms.Perm ms' → comptonScattering t ms voxel energy angle det = comptonScattering t ms' voxel energy angle det) ∧
    ∀ r, comptonScattering t ms voxel energy angle det = some r →
      (∀ ms' r', comptonScattering t ms' voxel energy angle det = some r' → ∃ s, comptonScattering t (ms ++ ms') voxel energy angle det = some s ∧
        s.1 = r.1 ∧ r'.1 = r.1 ∧ ∀ j, s.2 j = r.2 j + r'.2 j) ∧
      (∀ j, (∀ m ∈ ms, m.1 j = 0) → r.2 j = 0) ∧
      (∀ d, det = some d → ∃ s, comptonScattering t ms voxel energy (some (angle.getD d.angle)) none = some s ∧
        s.1 = r.1 ∧ ∀ j, r.2 j = d.solidAngle * s.2 j) ∧
      (0 ≤ voxel → (∀ d ∈ det, 0 ≤ d.surface) → ∀ j, (∀ m ∈ ms, 0 ≤ m.1 j ∧ 0 ≤ m.2.density ∧ ∀ a, 0 ≤ comptonCs t m.2 energy a) → 0 ≤ r.2 j) := by
  unfold comptonScattering
  have hor : (angle.orElse fun _ => det.map DetectorXrf.angle) = none ↔ angle = none ∧ det = none := by
    cases angle <;> cases det <;> simp [Option.orElse]
  cases h : (angle.orElse fun _ => det.map DetectorXrf.angle) with
  | none =>
    rw [h] at hor
    refine ⟨by simpa using hor, fun ms' _ => rfl, fun r hr => by simp at hr⟩
  | some a =>
    rw [h] at hor
    refine ⟨by simpa using hor, fun ms' hp => ?_, fun r hr => ?_⟩
    · simp only [Option.some.injEq, Prod.mk.injEq, true_and]
      funext j
      rw [(hp.map _).sum_eq]
    · simp only [Option.some.injEq] at hr
      subst hr
      refine ⟨fun ms' r' hr' => ?_, fun j hj => ?_, fun d hd => ?_, fun hv hs j hm => ?_⟩
      · simp only [Option.some.injEq] at hr'
        subst hr'
        refine ⟨_, rfl, rfl, rfl, fun j => ?_⟩
        simp only [List.map_append, List.sum_append]
        ring
      · dsimp only
        rw [List.sum_eq_zero]
        · ring
        · intro x hx
          obtain ⟨m, hm, rfl⟩ := List.mem_map.1 hx
          rw [hj m hm]; ring
      · subst hd
        have ha : angle.getD d.angle = a := by
          cases angle with
          | none => simpa [Option.orElse] using h
          | some c => simpa [Option.orElse] using h
        rw [ha]
        refine ⟨_, rfl, rfl, fun j => ?_⟩
        simp only [Option.elim]
        ring
      · dsimp only
        refine mul_nonneg (mul_nonneg (List.sum_nonneg fun x hx => ?_) hv) ?_
        · obtain ⟨m, hm', rfl⟩ := List.mem_map.1 hx
          obtain ⟨h1, h2, h3⟩ := hm m hm'
          exact mul_nonneg (mul_nonneg h1 h2) (h3 a)
        · cases det with
          | none => simp
          | some d =>
            have := hs d (by simp)
            simp only [Option.elim, DetectorXrf.solidAngle]
            have := Real.pi_pos
            positivity

/-- A volume of water and one detector. -/
example (t : ComptonTables) (f : Fin 2 → ℝ) : ∃ r, comptonScattering t [(f, ⟨"H2O", [1, 8], [0.1, 0.9], 1⟩)] 1 20 none
    (some ⟨1, 10, 1.5⟩) = some r := ⟨_, rfl⟩

/-! ## C185: adding noise -/

variable {P : Type} [Fintype P]

/-- **C185 (clean image).** Whenever `add_noise` succeeds, its clean image is the input times the number of photons and the efficiency,
whatever noise is asked for; and the call fails exactly if one of the standard deviations in use is negative (the default one for the
background is 5% of its average), or Poisson noise is asked for and a pixel is negative. -/
theorem C185_add_noise (rnd : Draws P) (img : Arr P) (n eff : ℝ) (poisson : Bool) (readout avg std : Option ℝ) :
    (∀ r, addNoise rnd img n eff poisson readout avg std = some r → r.2.1 = fun p => n * eff * img p) ∧
    (addNoise rnd img n eff poisson readout avg std = none ↔
      (∃ s ∈ readout, s < 0) ∨ (∃ a ∈ avg, std.getD (a / 20) < 0) ∨
      (poisson = true ∧ ∃ p, n * eff * img p +
        avg.elim 0 (fun a => n * eff * |a + std.getD (a / 20) * rnd.background p|) < 0)) := by
  have h5 : ∀ a : ℝ, a * 5e-2 = a / 20 := fun a => by norm_num; ring
  constructor
  · intro r hr
    unfold addNoise randomNormal at hr
    dsimp only at hr
    split at hr
    · simp at hr
    · split at hr
      · simp at hr
      · split at hr
        · simp only [Option.some.injEq] at hr; subst hr; rfl
        · split at hr
          · simp at hr
          · simp only [Option.map_some, Option.some.injEq] at hr; subst hr; rfl
  · unfold addNoise randomNormal
    cases avg with
    | none =>
      cases poisson with
      | false =>
        cases readout with
        | none => simp
        | some s => by_cases hs : s < 0 <;> simp [hs]
      | true =>
        by_cases hp : ∃ p, n * eff * img p < 0
        · simp [hp]
        · cases readout with
          | none => simp [hp]
          | some s => by_cases hs : s < 0 <;> simp [hs, hp]
    | some a =>
      simp only [h5]
      by_cases hb : std.getD (a / 20) < 0
      · simp [hb]
      · cases poisson with
        | false =>
          cases readout with
          | none => simp [hb]
          | some s => by_cases hs : s < 0 <;> simp [hs, hb]
        | true =>
          by_cases hp : ∃ p, n * eff * img p + n * eff * |a + std.getD (a / 20) * rnd.background p| < 0
          · simp [hb, hp]
          · cases readout with
            | none => simp [hp, hb]
            | some s => by_cases hs : s < 0 <;> simp [hs, hp, hb]

/-- **C185 (noise).** Without any noise the noisy image is the clean one and the background is 0. Without Poisson and read-out noise, the
mean of the difference between the noisy and the clean image is the background returned, no pixel is below its clean value, and the
background is not negative (for a non-negative number of photons and efficiency); the background returned is the same with Poisson and
read-out noise. With Poisson noise alone the readings are natural numbers. -/
theorem C185_noise (rnd : Draws P) (img : Arr P) (n eff : ℝ) (avg std : Option ℝ) :
    (∃ r, addNoise rnd img n eff false none none std = some r ∧ r.1 = r.2.1 ∧ r.2.2 = 0) ∧
    (∀ r, addNoise rnd img n eff false none avg std = some r →
      r.2.2 = (∑ p, (r.1 p - r.2.1 p)) / Fintype.card P ∧
      (0 ≤ n * eff → (∀ p, r.2.1 p ≤ r.1 p) ∧ 0 ≤ r.2.2) ∧
      ∀ poisson readout r', addNoise rnd img n eff poisson readout avg std = some r' → r'.2.2 = r.2.2 ∧
        (∀ s, readout = some s → ∃ m, addNoise rnd img n eff poisson none avg std = some m ∧ ∀ p, r'.1 p = m.1 p + s * rnd.readout p)) ∧
    (∀ r, addNoise rnd img n eff true none avg std = some r → ∀ p, ∃ k : ℕ, r.1 p = k) := by
  refine ⟨⟨_, rfl, rfl, by simp⟩, fun r hr => ?_, fun r hr p => ?_⟩
  · unfold addNoise randomNormal at hr ⊢
    cases avg with
    | none =>
      simp only [Bool.false_eq_true, if_false, Option.some.injEq] at hr
      subst hr
      refine ⟨rfl, fun _ => ⟨fun p => le_refl _, by simp⟩, fun poisson readout r' hr' => ?_⟩
      dsimp only at hr' ⊢
      split at hr'
      · simp at hr'
      · rename_i hn
        split at hr'
        · simp only [Option.some.injEq] at hr'; subst hr'
          exact ⟨rfl, fun s hs => by simp at hs⟩
        · split at hr'
          · simp at hr'
          · simp only [Option.map_some, Option.some.injEq] at hr'; subst hr'
            refine ⟨rfl, fun s hs => ?_⟩
            simp only [Option.some.injEq] at hs
            subst hs
            exact ⟨_, rfl, fun p => by simp⟩
    | some a =>
      by_cases hb : std.getD (a * 5e-2) < 0
      · simp [hb] at hr
      · simp only [hb, if_false, Option.map_some, Bool.false_eq_true, Option.some.injEq] at hr
        subst hr
        refine ⟨rfl, fun h0 => ⟨fun p => ?_, ?_⟩, fun poisson readout r' hr' => ?_⟩
        · dsimp only
          have := mul_nonneg h0 (abs_nonneg (a + std.getD (a * 5e-2) * rnd.background p))
          linarith
        · dsimp only
          refine div_nonneg (sum_nonneg fun p _ => ?_) (Nat.cast_nonneg _)
          have := mul_nonneg h0 (abs_nonneg (a + std.getD (a * 5e-2) * rnd.background p))
          linarith
        · simp only [hb, if_false, Option.map_some] at hr' ⊢
          split at hr'
          · simp at hr'
          · rename_i hn
            split at hr'
            · simp only [Option.some.injEq] at hr'; subst hr'
              exact ⟨rfl, fun s hs => by simp at hs⟩
            · split at hr'
              · simp at hr'
              · simp only [Option.map_some, Option.some.injEq] at hr'; subst hr'
                refine ⟨rfl, fun s hs => ?_⟩
                simp only [Option.some.injEq] at hs
                subst hs
                exact ⟨_, rfl, fun p => by simp⟩
  · unfold addNoise at hr
    dsimp only at hr
    split at hr
    · simp at hr
    · simp only [if_true] at hr
      split at hr
      · simp at hr
      · rename_i hn
        split at hn
        · simp at hn
        · simp only [Option.some.injEq] at hr hn
          subst hr
          subst hn
          exact ⟨_, rfl⟩

/-- A background of average 2, with draws 0 and 1: 10 photons for the value 1. -/
example : ∃ r, addNoise (⟨fun p => (p : ℕ), fun _ => 0, fun _ _ => 0⟩ : Draws (Fin 2)) (fun _ => 3) 10 1 false none (some 2) none = some r ∧
    r.1 1 = 51 ∧ r.2.1 1 = 30 ∧ r.2.2 = 20.5 := by
  refine ⟨_, by simp [addNoise, randomNormal]; norm_num; rfl, ?_, ?_, ?_⟩ <;> norm_num [abs_of_pos, Fin.sum_univ_two]

/-! ## C186: emission sinograms -/

variable {nA nD : ℕ} {V U : Type} [Fintype V] [Fintype U]

private theorem linear_smul {α β : Type} {A : Arr α → Arr β} (h : IsLinear A) (c : ℝ) (x : Arr α) :
    A (fun i => c * x i) = fun i => c * A x i := by
  have := h c 0 x x
  simpa using this

/-- The property C186 in full: without noise, the sinogram of `create_sino` is the forward projection — with the given attenuation and the
given point spread function — of the expected production returned with it. -/
def SinoOfPhantom : Prop :=
  ∀ (b : Backend 1 (Fin 1) (Fin 1)) (maps : Option (Fin 1 → Fin 1 → Arr (Fin 1))) (psf : Option (Arr (Fin 1) → Arr (Fin 1))),
    (∀ a, IsLinear fun vol => b.fp vol a) → (∀ f ∈ psf, IsLinear f) → ∀ (rnd : Draws (Fin 1 × Fin 1 × Fin 1)) (ph : Arr (Fin 1))
      (dwell flux : ℝ), ∃ r, createSino rnd b maps psf ph dwell flux false none none none = some r ∧
        r.1 = (xrfProjector b (maps.getD fun _ _ _ => 1) psf).fp r.2.1

/-- C186 is false: without attenuation volumes the point spread function is dropped. -/
theorem C186_sino_violated : ¬ SinoOfPhantom := by
  intro h
  obtain ⟨r, hr, h2⟩ := h ⟨fun vol _ => vol, fun prj _ => prj⟩ none (some fun x i => 2 * x i)
    (fun _ => by intro a b x y; rfl) (by intro f hf; simp at hf; subst hf; intro a b x y; funext i; ring)
    ⟨fun _ => 0, fun _ => 0, fun _ _ => 0⟩ (fun _ => 1) 1 1
  simp only [createSino, addNoise, Bool.false_eq_true, if_false, Option.map_some, Option.some.injEq] at hr
  subst hr
  have := congrFun h2 (0, 0, 0)
  norm_num [cleanSino, plainProjector, xrfProjector, Xrf.fp, Xrf.stack, Xrf.fpAngle, Uncorrected.fpAngle, Uncorrected.fp, Uncorrected.scale,
    Backend.fpAll, sinoSolidAngle] at this

/-- **C186 (partial).** With attenuation volumes, or without a point spread function: the noise-free sinogram of `create_sino` is the
forward projection of the expected production returned with it, the background is 0, and the expected production is the phantom times the
number of photons and the solid angle of the detector, 0.0375² sr. With a point spread function but no attenuation volume, the
sinogram is the projection without that function (what is missing). -/
theorem C186_sino_partial (rnd : Draws (Fin nD × Fin nA × U)) (b : Backend nA V U) (hb : ∀ a, IsLinear fun vol => b.fp vol a)
    (maps : Option (Fin nA → Fin nD → Arr V)) (psf : Option (Arr U → Arr U)) (hpsf : ∀ f ∈ psf, IsLinear f) (ph : Arr V) (dwell flux : ℝ) :
    ∃ r, createSino rnd b maps psf ph dwell flux false none none none = some r ∧
      r.2.1 = (fun j => flux * dwell * 0.0375 ^ 2 * ph j) ∧ r.2.2 = 0 ∧
      r.1 = (xrfProjector b (maps.getD fun _ _ _ => 1) (if maps.isSome then psf else none)).fp r.2.1 := by
  refine ⟨_, rfl, ?_, by simp, ?_⟩
  · funext j
    simp only [sinoSolidAngle]; norm_num; ring
  · have hc : (fun j => ph j * (flux * dwell) * sinoSolidAngle) = fun j => flux * dwell * sinoSolidAngle * ph j := by
      funext j; ring
    have hlin : ∀ (p : Option (Arr U → Arr U)), (∀ f ∈ p, IsLinear f) → ∀ m : Fin nA → Fin nD → Arr V, ∀ c : ℝ,
        (xrfProjector b m p).fp (fun j => c * ph j) = fun q => c * (xrfProjector b m p).fp ph q := by
      intro p hp m c
      funext q
      have h1 : (fun j => c * ph j * m q.2.1 q.1 j) = fun j => c * (ph j * m q.2.1 q.1 j) := by funext j; ring
      simp only [Xrf.fp, Xrf.stack, Xrf.fpAngle, xrfProjector, Uncorrected.fpAngle, Uncorrected.scale]
      rw [h1]
      have h2 : b.fp (fun j => c * (ph j * m q.2.1 q.1 j)) q.2.1 = fun u => c * b.fp (fun j => ph j * m q.2.1 q.1 j) q.2.1 u :=
        linear_smul (hb q.2.1) c _
      rw [h2]
      cases p with
      | none => simp
      | some f =>
        simp only
        rw [linear_smul (hp f (by simp)) c]
        simp
    dsimp only
    rw [hc]
    cases maps with
    | none =>
      simp only [Option.getD_none, Option.isSome_none, Bool.false_eq_true, if_false]
      rw [hlin none (by simp)]
      funext q
      simp [cleanSino, plainProjector, xrfProjector, Xrf.fp, Xrf.stack, Xrf.fpAngle, Uncorrected.fpAngle, Uncorrected.fp,
        Uncorrected.scale, Backend.fpAll]
    | some m =>
      simp only [Option.getD_some, Option.isSome_some, if_true]
      rw [hlin psf hpsf]
      rfl

/-- Every projector that sums voxels. -/
example (rnd : Draws (Fin 2 × Fin 3 × Fin 1)) (m : Fin 3 → Fin 2 → Arr (Fin 4)) (ph : Arr (Fin 4)) : ∃ r,
    createSino rnd (⟨fun v _ _ => ∑ j, v j, fun y _ _ => y 0⟩ : Backend 3 (Fin 4) (Fin 1)) (some m) none ph 1 100 false none none none = some r ∧
      r.2.2 = 0 := by
  obtain ⟨r, h1, _, h2, _⟩ := C186_sino_partial rnd (⟨fun v _ _ => ∑ j, v j, fun y _ _ => y 0⟩ : Backend 3 (Fin 4) (Fin 1))
    (fun a => by intro c d x y; funext u; simp only; rw [sum_add_distrib, mul_sum, mul_sum]) (some m) none (by simp) ph 1 100
  exact ⟨r, h1, h2⟩

/-- **C186 (angles).** The angles of the synthetic scans: as many as asked for, starting with the first one, equally spaced by the range
divided by their number, never reaching the end of the range, and all distinct if the range is not empty. -/
theorem C186_angles (start stop : ℝ) (n : ℕ) :
    (scanAngles start stop n).length = n ∧
    (∀ i < n, (scanAngles start stop n)[i]? = some ((start + (stop - start) * (i / n)) * Real.pi / 180)) ∧
    (start < stop → (∀ a ∈ scanAngles start stop n, start * Real.pi / 180 ≤ a ∧ a < stop * Real.pi / 180) ∧
      (scanAngles start stop n).Pairwise (· < ·)) := by
  unfold scanAngles
  refine ⟨by simp, fun i hi => ?_, fun h => ⟨fun a ha => ?_, ?_⟩⟩
  · rw [List.getElem?_map, List.getElem?_range hi]
    simp only [Option.map_some, Option.some.injEq]
    ring
  · obtain ⟨i, hi, rfl⟩ := List.mem_map.1 ha
    rw [List.mem_range] at hi
    have hn : (0 : ℝ) < n := by exact_mod_cast (Nat.zero_le i).trans_lt hi
    have hin : (i : ℝ) < n := by exact_mod_cast hi
    have hi0 : (0 : ℝ) ≤ i := Nat.cast_nonneg i
    have hpi := Real.pi_pos
    have h1 : 0 ≤ (stop - start) / n * i := by
      have : 0 < stop - start := by linarith
      positivity
    have h2 : (stop - start) / n * i < stop - start := by
      rw [div_mul_eq_mul_div, div_lt_iff₀ hn]
      exact mul_lt_mul_of_pos_left hin (by linarith)
    constructor
    · have := mul_le_mul_of_nonneg_right (show start ≤ start + (stop - start) / n * i by linarith) (show 0 ≤ Real.pi / 180 by positivity)
      linarith
    · have := mul_lt_mul_of_pos_right (show start + (stop - start) / n * i < stop by linarith) (show 0 < Real.pi / 180 by positivity)
      linarith
  · rw [List.pairwise_map]
    refine (List.pairwise_lt_range (n := n)).imp_of_mem ?_
    intro i k hi hk hik
    rw [List.mem_range] at hi
    have hn : (0 : ℝ) < n := by exact_mod_cast (Nat.zero_le i).trans_lt hi
    have : (0 : ℝ) < (stop - start) / n := div_pos (by linarith) hn
    have hik' : (i : ℝ) < k := by exact_mod_cast hik
    have hpi := Real.pi_pos
    have := mul_lt_mul_of_pos_left hik' this
    exact mul_lt_mul_of_pos_right (by linarith) (by positivity)

example : ∀ a ∈ scanAngles 0 180 16, a < Real.pi := fun a ha => by
  have := ((C186_angles 0 180 16).2.2 (by norm_num)).1 a ha
  linarith [this.2, Real.pi_pos]

/-! ## C187: transmission sinograms -/

/-- **C187.** Without noise, minus the logarithm of the sinogram of `create_sino_transmission` divided by its flat field is the forward
projection of the phantom — blurred by the point spread function, if one is given —, for every positive number of photons; the flat field is that number, and the
phantom is returned unchanged. With noise the flat field and the sinogram have independent draws: the flat field does not depend on the
phantom. -/
theorem C187_transmission (rnd rndFlat : Draws (Fin nA × U)) (b : Backend nA V U) (psf : Option (Arr U → Arr U)) (ph : Arr V)
    (dwell flux : ℝ) :
    (0 < flux * dwell → ∃ r, createSinoTransmission rnd rndFlat b psf ph dwell flux false none = some r ∧
      (∀ q, r.2.1 q = flux * dwell) ∧ r.2.2 = ph ∧
      ∀ q, -Real.log (r.1 q / r.2.1 q) = (⟨b, none, psf⟩ : Uncorrected nA V U).fp ph q) ∧
    (∀ poisson readout ph' r r', createSinoTransmission rnd rndFlat b psf ph dwell flux poisson readout = some r →
      createSinoTransmission rnd rndFlat b psf ph' dwell flux poisson readout = some r' → r.2.1 = r'.2.1) := by
  constructor
  · intro h
    refine ⟨_, rfl, fun q => by simp, rfl, fun q => ?_⟩
    dsimp only
    rw [mul_one, mul_one, mul_div_cancel_left₀ _ h.ne', Real.log_exp, neg_neg]
  · intro poisson readout ph' r r' hr hr'
    unfold createSinoTransmission at hr hr'
    dsimp only at hr hr'
    split at hr
    · simp at hr
    · split at hr'
      · simp at hr'
      · split at hr
        · simp at hr
        · rename_i f hf
          rw [hf] at hr'
          simp only [Option.some.injEq] at hr hr'
          subst hr; subst hr'; rfl

example (rnd : Draws (Fin 3 × Fin 1)) (ph : Arr (Fin 4)) (q : Fin 3 × Fin 1) : ∃ r,
    createSinoTransmission rnd rnd (⟨fun v _ _ => ∑ j, v j, fun y _ _ => y 0⟩ : Backend 3 (Fin 4) (Fin 1)) none ph 1 1000 false none = some r ∧
      -Real.log (r.1 q / r.2.1 q) = ∑ j, ph j := by
  obtain ⟨r, h1, _, _, h2⟩ := (C187_transmission rnd rnd (⟨fun v _ _ => ∑ j, v j, fun y _ _ => y 0⟩ : Backend 3 (Fin 4) (Fin 1)) none ph 1 1000).1
    (by norm_num)
  exact ⟨r, h1, h2 q⟩

/-! ## C188: error power -/

private theorem power_eq (x : Arr V) : Real.sqrt ((∑ j, x j ^ 2) / Fintype.card V) =
    ‖(WithLp.toLp 2 x : EuclideanSpace ℝ V)‖ / Real.sqrt (Fintype.card V) := by
  rw [EuclideanSpace.norm_eq, Real.sqrt_div' _ (Nat.cast_nonneg _)]
  simp

/-- **C188.** The error power of `compute_error_power` is a distance between volumes: zero exactly for equal ones, symmetric, and satisfying
the triangle inequality; the signal power is the distance to the empty volume, so that it does not depend on the computed volume; both
scale with the volumes; the error power is at most the largest error of a voxel. -/
theorem C188_error_power [Nonempty V] (x y z : Arr V) :
    (0 ≤ (errorPower x y).2 ∧ ((errorPower x y).2 = 0 ↔ x = y)) ∧ (errorPower x y).2 = (errorPower y x).2 ∧
    (errorPower x z).2 ≤ (errorPower x y).2 + (errorPower y z).2 ∧
    (errorPower x y).1 = (errorPower x fun _ => 0).2 ∧
    (∀ c : ℝ, errorPower (fun j => c * x j) (fun j => c * y j) = (|c| * (errorPower x y).1, |c| * (errorPower x y).2)) ∧
    (∀ m : ℝ, (∀ j, |x j - y j| ≤ m) → (errorPower x y).2 ≤ m) := by
  have hcard : (0 : ℝ) < Fintype.card V := by exact_mod_cast Fintype.card_pos
  have hs : 0 < Real.sqrt (Fintype.card V) := Real.sqrt_pos.2 hcard
  have h2 : ∀ x y : Arr V, (errorPower x y).2 =
      ‖(WithLp.toLp 2 x : EuclideanSpace ℝ V) - WithLp.toLp 2 y‖ / Real.sqrt (Fintype.card V) := by
    intro x y
    have := power_eq fun j => x j - y j
    simp only [errorPower, sq_abs]
    rw [this]
    rfl
  have h1 : ∀ x y : Arr V, (errorPower x y).1 = ‖(WithLp.toLp 2 x : EuclideanSpace ℝ V)‖ / Real.sqrt (Fintype.card V) := fun x y =>
    power_eq x
  refine ⟨⟨Real.sqrt_nonneg _, ?_⟩, ?_, ?_, ?_, ?_, ?_⟩
  · rw [h2, div_eq_zero_iff, norm_eq_zero, sub_eq_zero]
    simp [hs.ne']
  · rw [h2, h2, norm_sub_rev]
  · rw [h2, h2, h2, ← add_div]
    gcongr
    exact norm_sub_le_norm_sub_add_norm_sub _ _ _
  · simp [errorPower]
  · intro c
    refine Prod.ext ?_ ?_
    · simp only [errorPower, mul_pow, ← mul_sum]
      rw [mul_div_assoc, Real.sqrt_mul (sq_nonneg c), Real.sqrt_sq_eq_abs]
    · simp only [errorPower, sq_abs, ← mul_sub, mul_pow, ← mul_sum]
      rw [mul_div_assoc, Real.sqrt_mul (sq_nonneg c), Real.sqrt_sq_eq_abs]
  · intro m hm
    have hm0 : 0 ≤ m := (abs_nonneg _).trans (hm (Classical.arbitrary V))
    simp only [errorPower]
    rw [Real.sqrt_le_left hm0, div_le_iff₀ hcard]
    calc ∑ j, |x j - y j| ^ 2 ≤ ∑ _j : V, m ^ 2 := sum_le_sum fun j _ => by
          have := hm j
          exact pow_le_pow_left₀ (abs_nonneg _) this 2
      _ = m ^ 2 * Fintype.card V := by rw [sum_const, card_univ, nsmul_eq_mul, mul_comm]

example : (errorPower (fun _ : Fin 4 => 3) (fun _ => 1)).2 = 2 ∧ (errorPower (fun _ : Fin 4 => 3) (fun _ => 1)).1 = 3 := by
  constructor
  · have : (∑ j : Fin 4, |(3 : ℝ) - 1| ^ 2) / (Fintype.card (Fin 4) : ℝ) = 2 ^ 2 := by norm_num [abs_of_pos]
    simp only [errorPower]
    rw [this, Real.sqrt_sq (by norm_num)]
  · have : (∑ j : Fin 4, (3 : ℝ) ^ 2) / (Fintype.card (Fin 4) : ℝ) = 3 ^ 2 := by norm_num
    simp only [errorPower]
    rw [this, Real.sqrt_sq (by norm_num)]

end Verif
