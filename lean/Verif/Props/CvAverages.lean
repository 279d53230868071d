import Verif.Props.ParamTuning
import Verif.Props.CrossValidation

/-! # C145: averages and deviations of the cross-validation losses -/

namespace Verif
open Finset

variable {M H R : Type}

/-- `score m h` is the cross-validation loss of the reconstruction with test mask `m` and hyper-parameter `h`. -/
def ScoredBy (task : M → Task H (R × Info)) (score : M → H → ℝ) (masks : List M) (hp : List H) : Prop :=
  ∀ m ∈ masks, ∀ h ∈ hp, ∃ r info, task m h = .ok (r, info) ∧ cvLoss info = some (score m h)

private theorem mapM_some {α β : Type} {f : α → Option β} {g : α → β} :
    ∀ l : List α, (∀ x ∈ l, f x = some (g x)) → l.mapM f = some (l.map g)
  | [], _ => rfl
  | x :: l, h => by
    rw [List.mapM_cons, h x (by simp), mapM_some l fun y hy => h y (by simp [hy])]
    rfl

private theorem round_ok (pe : ParallelEval) (task : Task H (R × Info)) (score : H → ℝ) (hp : List H) (order : List ℕ)
    (ho : order.Perm (List.range hp.length))
    (h : ∀ x ∈ hp, ∃ r info, task x = .ok (r, info) ∧ cvLoss info = some (score x)) :
    cvRound pe task hp order = .ok (hp.map score) := by
  classical
  have h1 : ∀ x : H, ∃ o : Option (R × Info), x ∈ hp →
      (∃ r, o = some r ∧ task x = .ok r) ∧ o.bind (fun r => cvLoss r.2) = some (score x) := by
    intro x
    by_cases hx : x ∈ hp
    · obtain ⟨r, info, h1, h2⟩ := h x hx
      exact ⟨some (r, info), fun _ => ⟨⟨_, rfl, h1⟩, h2⟩⟩
    · exact ⟨none, fun h => absurd h hx⟩
  choose g hg using h1
  have h2 : processHpVals pe task hp order = .ok (hp.map g) := by
    refine ((C43_parallel_eq_serial pe task hp order ho).2.1 _).2 ⟨by simp, fun i x hx => ?_⟩
    obtain ⟨r, h3, h4⟩ := (hg x (List.mem_of_getElem? hx)).1
    exact ⟨r, h4, by rw [List.getElem?_map, hx, Option.map_some, h3]⟩
  unfold cvRound
  rw [h2]
  dsimp only
  rw [mapM_some (g := fun o => (o.bind fun r => cvLoss r.2).getD 0) (hp.map g) (by
    intro o ho'
    obtain ⟨x, hx, rfl⟩ := List.mem_map.1 ho'
    rw [(hg x hx).2]; rfl)]
  dsimp only
  rw [List.map_map]
  exact congrArg Except.ok (List.map_congr_left fun x hx => by simp [(hg x hx).2])

private theorem rounds_ok (pe : ParallelEval) (task : M → Task H (R × Info)) (score : M → H → ℝ) (masks : List M)
    (hp : List H) (orders : ℕ → List ℕ) (ho : ∀ i, (orders i).Perm (List.range hp.length))
    (h : ScoredBy task score masks hp) : ∀ n ≤ masks.length,
    cvRounds pe task masks hp orders n = .ok ((masks.take n).map fun m => hp.map (score m))
  | 0, _ => by simp [cvRounds]
  | n + 1, hn => by
    have hlt : n < masks.length := by omega
    unfold cvRounds
    rw [rounds_ok pe task score masks hp orders ho h n (by omega), List.getElem?_eq_getElem hlt]
    dsimp only
    rw [round_ok pe (task masks[n]) (score masks[n]) hp (orders n) (ho n) (h _ (List.getElem_mem hlt))]
    dsimp only
    rw [List.take_add_one, List.getElem?_eq_getElem hlt, List.map_append]
    rfl

/-- The mean of a list. -/
noncomputable def meanOfList (l : List ℝ) : ℝ := l.sum / l.length

/-- C145, values: whatever the parallelism and the completion orders in the rounds, the averages, in the order of the
hyper-parameters, are the means over the test masks of the losses; the squared deviations are the means of the squared
differences from these averages; and the third result lists the losses of each round. -/
theorem C145_values (pe : ParallelEval) (task : M → Task H (R × Info)) (score : M → H → ℝ) (masks : List M)
    (hp : List H) (orders : ℕ → List ℕ) (ho : ∀ i, (orders i).Perm (List.range hp.length)) (hm : masks ≠ [])
    (h : ScoredBy task score masks hp) :
    ∃ avgs stds, cvCompute pe task masks.length masks hp orders = .ok (avgs, stds, masks.map fun m => hp.map (score m)) ∧
      avgs = (hp.map fun x => meanOfList (masks.map fun m => score m x)) ∧
      stds.map (· ^ 2) = (hp.map fun x => meanOfList (masks.map fun m =>
        (score m x - meanOfList (masks.map fun m => score m x)) ^ 2)) ∧ ∀ s ∈ stds, 0 ≤ s := by
  have hlen : masks.length ≠ 0 := by simpa using hm
  have hcol : ∀ k (hk : k < hp.length), ((masks.map fun m => hp.map (score m)).map fun f => f.getD k 0) =
      masks.map fun m => score m hp[k] := by
    intro k hk
    rw [List.map_map]
    refine List.map_congr_left fun m _ => ?_
    simp [List.getD, hk]
  have hst : ∀ l : List ℝ, cvStd l ^ 2 = meanOfList (l.map fun f => (f - meanOfList l) ^ 2) := by
    intro l
    unfold cvStd
    rw [Real.sq_sqrt]
    · rfl
    · unfold cvAverage
      refine div_nonneg (List.sum_nonneg ?_) (Nat.cast_nonneg _)
      intro x hx
      obtain ⟨y, -, rfl⟩ := List.mem_map.1 hx
      positivity
  have hrun : cvCompute pe task masks.length masks hp orders = .ok
      ((List.range hp.length).map fun k => cvAverage ((masks.map fun m => hp.map (score m)).map fun f => f.getD k 0),
       (List.range hp.length).map fun k => cvStd ((masks.map fun m => hp.map (score m)).map fun f => f.getD k 0),
       masks.map fun m => hp.map (score m)) := by
    unfold cvCompute
    rw [rounds_ok pe task score masks hp orders ho h masks.length le_rfl, List.take_length]
    dsimp only
    rw [if_neg hlen]
  refine ⟨_, _, hrun, ?_, ?_, ?_⟩
  · refine List.ext_getElem (by simp) fun k h1 h2 => ?_
    have hk : k < hp.length := by simpa using h2
    simp only [List.getElem_map, List.getElem_range]
    rw [hcol k hk]; rfl
  · refine List.ext_getElem (by simp) fun k h1 h2 => ?_
    have hk : k < hp.length := by simpa using h2
    simp only [List.getElem_map, List.getElem_range]
    rw [hcol k hk, hst, List.map_map]; rfl
  · intro s hs
    obtain ⟨k, -, rfl⟩ := List.mem_map.1 hs
    exact Real.sqrt_nonneg _

/-- C145, order: neither the order of the test masks nor the completion orders nor the parallelism influence averages and
deviations. -/
theorem C145_mask_order (pe pe' : ParallelEval) (task : M → Task H (R × Info)) (score : M → H → ℝ) {masks masks' : List M}
    (hperm : masks.Perm masks') (hp : List H) (orders orders' : ℕ → List ℕ)
    (ho : ∀ i, (orders i).Perm (List.range hp.length)) (ho' : ∀ i, (orders' i).Perm (List.range hp.length))
    (hm : masks ≠ []) (h : ScoredBy task score masks hp) :
    (cvCompute pe task masks.length masks hp orders).map (fun r => (r.1, r.2.1)) =
      (cvCompute pe' task masks'.length masks' hp orders').map fun r => (r.1, r.2.1) := by
  have hm' : masks' ≠ [] := by rintro rfl; exact hm hperm.eq_nil
  obtain ⟨a, s, e, ha, hs, hn⟩ := C145_values pe task score masks hp orders ho hm h
  obtain ⟨a', s', e', ha', hs', hn'⟩ := C145_values pe' task score masks' hp orders' ho' hm'
    (fun m hmm => h m (hperm.mem_iff.2 hmm))
  have hmean : ∀ f : M → ℝ, meanOfList (masks.map f) = meanOfList (masks'.map f) := by
    intro f
    unfold meanOfList
    rw [(hperm.map f).sum_eq, (hperm.map f).length_eq]
  have h1 : a = a' := by rw [ha, ha']; exact List.map_congr_left fun x _ => hmean _
  have h2 : s.map (· ^ 2) = s'.map (· ^ 2) := by
    rw [hs, hs']; exact List.map_congr_left fun x _ => by rw [hmean fun m => score m x, hmean]
  have h3 : s = s' := by
    have hl : s.length = s'.length := by simpa using congrArg List.length h2
    refine List.ext_getElem hl fun k k1 k2 => ?_
    have e2 : s[k] ^ 2 = s'[k] ^ 2 := by
      have := congrArg (fun l => l[k]?) h2
      simpa [List.getElem?_map, k1, k2] using this
    exact (pow_left_inj₀ (hn _ (List.getElem_mem k1)) (hn' _ (List.getElem_mem k2)) two_ne_zero).1 e2
  rw [e, e', h1, h3]; rfl

private theorem mean_bounds {l : List ℝ} (hl : l ≠ []) {lo hi : ℝ} (h : ∀ x ∈ l, lo ≤ x ∧ x ≤ hi) :
    lo ≤ meanOfList l ∧ meanOfList l ≤ hi := by
  have hpos : (0 : ℝ) < l.length := by exact_mod_cast List.length_pos_iff.2 hl
  unfold meanOfList
  rw [le_div_iff₀ hpos, div_le_iff₀ hpos]
  have h1 := List.card_nsmul_le_sum l lo fun x hx => (h x hx).1
  have h2 := List.sum_le_card_nsmul l hi fun x hx => (h x hx).2
  rw [nsmul_eq_mul] at h1 h2
  constructor <;> linarith

/-- C145, bounds: each average lies between any bounds of the losses of its hyper-parameter, and the deviation is 0 exactly if
all masks give the same loss. -/
theorem C145_bounds (pe : ParallelEval) (task : M → Task H (R × Info)) (score : M → H → ℝ) (masks : List M)
    (hp : List H) (orders : ℕ → List ℕ) (ho : ∀ i, (orders i).Perm (List.range hp.length)) (hm : masks ≠ [])
    (h : ScoredBy task score masks hp) {avgs stds fs} (hr : cvCompute pe task masks.length masks hp orders = .ok (avgs, stds, fs)) :
    avgs.length = hp.length ∧ stds.length = hp.length ∧
    ∀ (k : ℕ) x, hp[k]? = some x → ∀ a s, avgs[k]? = some a → stds[k]? = some s →
      (∀ lo hi, (∀ m ∈ masks, lo ≤ score m x ∧ score m x ≤ hi) → lo ≤ a ∧ a ≤ hi) ∧
      (s = 0 ↔ ∀ m ∈ masks, score m x = a) := by
  obtain ⟨a, s, e, ha, hs, hn⟩ := C145_values pe task score masks hp orders ho hm h
  rw [e] at hr
  simp only [Except.ok.injEq, Prod.mk.injEq] at hr
  obtain ⟨rfl, rfl, rfl⟩ := hr
  have hlen : s.length = hp.length := by simpa using congrArg List.length hs
  refine ⟨by rw [ha]; simp, hlen, fun k x hx a1 s1 ha1 hs1 => ?_⟩
  rw [ha, List.getElem?_map, hx] at ha1
  have ha1' : meanOfList (masks.map fun m => score m x) = a1 := by simpa using ha1
  have hs2 : s1 ^ 2 = meanOfList (masks.map fun m => (score m x - meanOfList (masks.map fun m => score m x)) ^ 2) := by
    have := congrArg (fun l => l[k]?) hs
    simp only [List.getElem?_map, hs1, hx] at this
    simpa using this
  have hpos : (0 : ℝ) < masks.length := by exact_mod_cast List.length_pos_iff.2 hm
  refine ⟨fun lo hi hb => ?_, ?_⟩
  · rw [← ha1']
    refine mean_bounds (by simpa using hm) fun y hy => ?_
    obtain ⟨m, hmm, rfl⟩ := List.mem_map.1 hy
    exact hb m hmm
  · rw [ha1'] at hs2
    have h0 : s1 = 0 ↔ (masks.map fun m => (score m x - a1) ^ 2).sum = 0 := by
      rw [← pow_eq_zero_iff (two_ne_zero), hs2, meanOfList, div_eq_zero_iff]
      simp [hm]
    rw [h0]
    constructor
    · intro hsum m hmm
      have hnn : ∀ y ∈ masks.map fun m => (score m x - a1) ^ 2, (0 : ℝ) ≤ y := by
        intro y hy
        obtain ⟨m', -, rfl⟩ := List.mem_map.1 hy
        positivity
      have h1 := List.single_le_sum hnn _ (List.mem_map.2 ⟨m, hmm, rfl⟩)
      have h2 : (score m x - a1) ^ 2 = 0 := le_antisymm (hsum ▸ h1) (sq_nonneg _)
      have := pow_eq_zero_iff (two_ne_zero) |>.1 h2
      linarith
    · intro hall
      refine List.sum_eq_zero fun y hy => ?_
      obtain ⟨m, hmm, rfl⟩ := List.mem_map.1 hy
      rw [hall m hmm]; ring

/-- C145, errors: a failing reconstruction in any round makes the whole evaluation raise. -/
theorem C145_error (pe : ParallelEval) (task : M → Task H (R × Info)) (masks : List M)
    (hp : List H) (orders : ℕ → List ℕ) (ho : ∀ i, (orders i).Perm (List.range hp.length))
    (h : ∃ m ∈ masks, ∃ x ∈ hp, ∃ e, task m x = .error e) :
    ∃ e, cvCompute pe task masks.length masks hp orders = .error e := by
  obtain ⟨m, hm, x, hx, e, he⟩ := h
  obtain ⟨i, hi, rfl⟩ := List.getElem_of_mem hm
  have key : ∀ n, i < n → ∃ e, cvRounds pe task masks hp orders n = .error e := by
    intro n
    induction n with
    | zero => intro h; omega
    | succ n ih =>
      intro hin
      unfold cvRounds
      rcases Nat.lt_succ_iff_lt_or_eq.1 hin with hlt | rfl
      · obtain ⟨e', he'⟩ := ih hlt
        exact ⟨e', by rw [he']⟩
      · cases hr : cvRounds pe task masks hp orders i with
        | error e' => exact ⟨e', rfl⟩
        | ok fs =>
          obtain ⟨e', he', -⟩ := (C43_parallel_eq_serial pe (task masks[i]) hp (orders i) (ho i)).2.2 ⟨x, hx, e, he⟩
          refine ⟨e', ?_⟩
          simp only [List.getElem?_eq_getElem hi, cvRound, he']
  obtain ⟨e', he'⟩ := key masks.length hi
  exact ⟨e', by unfold cvCompute; rw [he']⟩

/-- Non-vacuity: two masks, two hyper-parameters; the losses are `m / h`. -/
example : ∃ fs, cvCompute (.threads 4) (fun (m : ℕ) (h : ℕ) => .ok ((), { Info.new 1 none with
      residual0Cv := some h, residualsCv := [(m : ℝ)] })) 2 [1, 3] [1, 2] (fun _ => [1, 0]) = .ok ([2, 1], fs) := by
  obtain ⟨a, s, e, ha, -, -⟩ := C145_values (.threads 4) (fun (m : ℕ) (h : ℕ) => .ok ((), { Info.new 1 none with
      residual0Cv := some (h : ℝ), residualsCv := [(m : ℝ)] })) (fun m h => m / h) [1, 3] [1, 2] (fun _ => [1, 0])
      (fun _ => by decide) (by simp) (by
        intro m hm h hh
        refine ⟨_, _, rfl, ?_⟩
        have : (h : ℝ) ≠ 0 := by simp at hh; rcases hh with rfl | rfl <;> norm_num
        simp [cvLoss, this])
  have h2 : a = [2, 1] := by rw [ha]; norm_num [meanOfList]
  rw [h2] at e
  exact ⟨_, e⟩
end Verif
