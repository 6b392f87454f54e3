import Verif.Model.Training
import Verif.Props.Learning

/-!
# C92: what the training loop does

Which batches are used, how many updates are made, what is logged and which states are saved.
-/

namespace Discs

open Finset

section Loop

variable {R β : Type*}

/-- The batches of the updates, in order. -/
def Spec.usedBatches (ev : List (TrainEvent R β)) : List β :=
  ev.filterMap fun | .update _ b => some b | _ => none

/-- The learning rates of the updates, in order. -/
def Spec.usedRates (ev : List (TrainEvent R β)) : List R :=
  ev.filterMap fun | .update r _ => some r | _ => none

/-- The loop makes exactly `m` updates: either all that were asked for, or the loader ran dry. -/
def Spec.Supplies (loader : ℕ → Option β) (total m : ℕ) (b : ℕ → β) : Prop :=
  m ≤ total ∧ (∀ i < m, loader i = some (b i)) ∧ (m = total ∨ loader m = none)

/-- No frequency is zero. -/
def Spec.Frequencies (f : TrainFreq) : Prop := f.log ≠ 0 ∧ f.plot ≠ 0 ∧ f.save ≠ 0

/-- What follows an update. -/
private def after (f : TrainFreq) (sched : ℕ → R) (s : ℕ) : List (TrainEvent R β) :=
  (if s % f.log = 0 then [.log s (sched s)] else []) ++ (if s % f.plot = 0 then [.plot s] else [])
    ++ (if s % f.save = 0 then [.save s s] else [])

private theorem trainLoop_eq {f : TrainFreq} (hf : Spec.Frequencies f) (sched : ℕ → R)
    (loader : ℕ → Option β) (b : ℕ → β) (m : ℕ) :
    ∀ k done, done ≤ m → m ≤ done + k → (∀ i < m, loader i = some (b i)) →
      (m = done + k ∨ loader m = none) →
      trainLoop f sched loader k (done + 1) done
        = (List.range' done (m - done)).flatMap fun i => .update (sched i) (b i) :: after f sched (i + 1) := by
  intro k
  induction k with
  | zero =>
    intro done h1 h2 _ _
    have : m - done = 0 := by omega
    simp [trainLoop, this]
  | succ k ih =>
    intro done h1 h2 hb hend
    rcases Nat.lt_or_ge done m with h | h
    · have e : m - done = (m - (done + 1)) + 1 := by omega
      rw [trainLoop, hb done h, e, List.range'_succ, List.flatMap_cons,
        ih (done + 1) (by omega) (by omega) hb (hend.imp (fun h => by omega) id)]
      simp [after, hf.1, hf.2.1, hf.2.2]
    · have e : m - done = 0 := by omega
      have : loader done = none := by
        rcases hend with h' | h'
        · omega
        · rwa [show done = m by omega]
      rw [trainLoop, this, e]
      rfl

private theorem trainRun_eq {f : TrainFreq} (hf : Spec.Frequencies f) (sched : ℕ → R)
    (loader : ℕ → Option β) (total m : ℕ) (b : ℕ → β)
    (h : Spec.Supplies loader total m b) :
    trainRun f sched loader total
      = (List.range m).flatMap fun i => .update (sched i) (b i) :: after f sched (i + 1) := by
  rw [trainRun, trainLoop_eq hf sched loader b m total 0 (Nat.zero_le _) (by simpa using h.1) h.2.1
    (by simpa using h.2.2), List.range_eq_range', Nat.sub_zero]

/-- **C92 (updates).**  The updates use the batches of the loader in order, each once, at the learning rates
`schedule 0, schedule 1, …`. -/
theorem train_updates {f : TrainFreq} (hf : Spec.Frequencies f) (sched : ℕ → R)
    (loader : ℕ → Option β) (total m : ℕ) (b : ℕ → β)
    (h : Spec.Supplies loader total m b) :
    Spec.usedBatches (trainRun f sched loader total) = (List.range m).map b ∧
      Spec.usedRates (trainRun f sched loader total) = (List.range m).map sched := by
  have ha : ∀ s, Spec.usedBatches (after (β := β) f sched s) = [] ∧ Spec.usedRates (after (β := β) f sched s) = [] := by
    intro s
    unfold after
    constructor <;> (split_ifs <;> rfl)
  rw [trainRun_eq hf sched loader total m b h]
  constructor
  · rw [Spec.usedBatches, List.filterMap_flatMap, List.map_eq_flatMap]
    congr 1
    funext i
    rw [List.filterMap_cons]
    exact congrArg (b i :: ·) (ha (i + 1)).1
  · rw [Spec.usedRates, List.filterMap_flatMap, List.map_eq_flatMap]
    congr 1
    funext i
    rw [List.filterMap_cons]
    exact congrArg (sched i :: ·) (ha (i + 1)).2

/-- **C92 (log, plots and checkpoints).**  The steps at which something is logged, plotted or saved are the
multiples of the configured frequencies up to the last update; a saved state carries its own step. -/
theorem train_events {f : TrainFreq} (hf : Spec.Frequencies f) (sched : ℕ → R)
    (loader : ℕ → Option β) (total m : ℕ) (b : ℕ → β)
    (h : Spec.Supplies loader total m b) :
    (∀ s r, .log s r ∈ trainRun f sched loader total ↔ 1 ≤ s ∧ s ≤ m ∧ f.log ∣ s ∧ r = sched s) ∧
      (∀ s, .plot s ∈ trainRun f sched loader total ↔ 1 ≤ s ∧ s ≤ m ∧ f.plot ∣ s) ∧
      ∀ s u, .save s u ∈ trainRun f sched loader total ↔ 1 ≤ s ∧ s ≤ m ∧ f.save ∣ s ∧ u = s := by
  rw [trainRun_eq hf sched loader total m b h]
  simp only [List.mem_flatMap, List.mem_range, List.mem_cons, after, List.mem_append, Nat.dvd_iff_mod_eq_zero]
  refine ⟨fun s r => ?_, fun s => ?_, fun s u => ?_⟩
  · constructor
    · rintro ⟨i, hi, h | (h | h) | h⟩
      · cases h
      · split_ifs at h with hm
        · simp only [List.mem_singleton, TrainEvent.log.injEq] at h
          obtain ⟨rfl, rfl⟩ := h
          exact ⟨by omega, by omega, hm, rfl⟩
        · simp at h
      · split_ifs at h <;> simp at h
      · split_ifs at h <;> simp at h
    · rintro ⟨h1, h2, h3, rfl⟩
      refine ⟨s - 1, by omega, Or.inr (Or.inl (Or.inl ?_))⟩
      rw [show s - 1 + 1 = s by omega, if_pos h3]
      simp
  · constructor
    · rintro ⟨i, hi, h | (h | h) | h⟩
      · cases h
      · split_ifs at h <;> simp at h
      · split_ifs at h with hm
        · simp only [List.mem_singleton, TrainEvent.plot.injEq] at h
          subst h
          exact ⟨by omega, by omega, hm⟩
        · simp at h
      · split_ifs at h <;> simp at h
    · rintro ⟨h1, h2, h3⟩
      refine ⟨s - 1, by omega, Or.inr (Or.inl (Or.inr ?_))⟩
      rw [show s - 1 + 1 = s by omega, if_pos h3]
      simp
  · constructor
    · rintro ⟨i, hi, h | (h | h) | h⟩
      · cases h
      · split_ifs at h <;> simp at h
      · split_ifs at h <;> simp at h
      · split_ifs at h with hm
        · simp only [List.mem_singleton, TrainEvent.save.injEq] at h
          obtain ⟨rfl, rfl⟩ := h
          exact ⟨by omega, by omega, hm, rfl⟩
        · simp at h
    · rintro ⟨h1, h2, h3, rfl⟩
      refine ⟨u - 1, by omega, Or.inr (Or.inr ?_)⟩
      rw [show u - 1 + 1 = u by omega, if_pos h3]
      simp

/-- **C92 (frequency zero).**  With a frequency of zero the program raises in the first pass, after one update, and saves
nothing. -/
theorem train_raises {f : TrainFreq} (hf : ¬ Spec.Frequencies f) (sched : ℕ → R) {loader : ℕ → Option β} {total : ℕ}
    (ht : 0 < total) {b : β} (hb : loader 0 = some b) :
    Spec.usedBatches (trainRun f sched loader total) = [b] ∧ .raised ∈ trainRun f sched loader total ∧
      ∀ s u, .save s u ∉ trainRun f sched loader total := by
  obtain ⟨k, rfl⟩ : ∃ k, total = k + 1 := ⟨total - 1, by omega⟩
  unfold Spec.Frequencies at hf
  unfold trainRun trainLoop Spec.usedBatches
  simp only [hb]
  by_cases h1 : f.log = 0
  · simp [h1]
  · by_cases h2 : f.plot = 0
    · simp only [h1, h2, if_false, if_true]
      split_ifs <;> simp
    · have h3 : f.save = 0 := by
        by_contra h3
        exact hf ⟨h1, h2, h3⟩
      simp only [h1, h2, h3, if_false, if_true]
      split_ifs <;> simp

/-- **C92 (length of the training).**  With a repeated, non-empty data set all `total_train_steps` updates are
made, cycling through the batches. -/
theorem supplies_repeat [Inhabited β] (batches : List β) (hb : batches ≠ []) (total : ℕ) :
    Spec.Supplies (loaderOf true batches) total total fun i => batches.getD (i % batches.length) default := by
  have hl : 0 < batches.length := List.length_pos_iff.2 hb
  refine ⟨le_rfl, fun i _ => ?_, Or.inl rfl⟩
  have := Nat.mod_lt i hl
  simp [loaderOf, this]

/-- **C92 (length of the training, refuted for the RBM).**  Without repetition, which is how
`main_rbm_training.py:107-109` calls the loader, training stops after one pass over the data: there are
`min total_train_steps batches` updates. -/
theorem supplies_once [Inhabited β] (batches : List β) (total : ℕ) :
    Spec.Supplies (loaderOf false batches) total (min total batches.length) fun i => batches.getD i default := by
  refine ⟨min_le_left _ _, fun i hi => ?_, ?_⟩
  · have : i < batches.length := lt_of_lt_of_le hi (min_le_right _ _)
    simp [loaderOf, this]
  · rcases Nat.le_total total batches.length with h | h
    · exact Or.inl (min_eq_left h)
    · right
      simp [loaderOf, h]

/-- One epoch of three batches, although ten updates are asked for; the state after the last update is not
among the saved ones. -/
example : trainRun ⟨2, 3, 2⟩ (fun s => 10 * s) (loaderOf false ["a", "b", "c"]) 10
    = [.update 0 "a", .update 10 "b", .log 2 20, .save 2 2, .update 20 "c", .plot 3] := by decide

/-- **C92 (last state).**  The final state is among the saved checkpoints exactly if the number of updates is a
multiple of `save_every_steps`. -/
theorem final_saved {f : TrainFreq} (hf : Spec.Frequencies f) (sched : ℕ → R)
    (loader : ℕ → Option β) (total m : ℕ) (b : ℕ → β)
    (h : Spec.Supplies loader total m b) :
    (∃ s, .save s m ∈ trainRun f sched loader total) ↔ 1 ≤ m ∧ f.save ∣ m := by
  have hs := (train_events hf sched loader total m b h).2.2
  constructor
  · rintro ⟨s, hm⟩
    obtain ⟨a, _, c, rfl⟩ := (hs s m).1 hm
    exact ⟨a, c⟩
  · rintro ⟨a, c⟩
    exact ⟨m, (hs m m).2 ⟨a, le_rfl, c, rfl⟩⟩

end Loop

/-! ### Learning rate in the log -/

/-- **C92 (constant rate).**  The rate in the log is the rate that was used. -/
theorem constantLr_logged (lr : ℝ) (s : ℕ) : constantLr lr (s - 1) = lr ∧ constantLr lr s = lr := by
  simp [constantLr, constSchedule]

/-- **C92 (warm-up, refuted).**  During the warm-up of `updown` the log at step `s` shows a rate that is larger
than the one used for that update by `lr / warmup`; the first update is made at rate zero. -/
theorem updown_logged (lr frac : ℝ) (h0 : 0 ≤ frac) (total : ℕ) :
    let w := ⌊frac * total⌋₊
    (0 < w → updown lr frac total 0 = 0) ∧
      ∀ s, 1 ≤ s → s ≤ w → updown lr frac total s = updown lr frac total (s - 1) + lr / w := by
  intro w
  have hx : 0 ≤ frac * (total : ℝ) := mul_nonneg h0 (Nat.cast_nonneg _)
  have hw : (pyInt (frac * total)).toNat = w := by
    rw [pyInt, if_pos hx]
    exact Int.floor_toNat _
  have hv : ∀ t, updown lr frac total t = if t < w then linearSchedule 0 lr w t
      else linearSchedule lr (lr * 0.01) (total - w) (t - w) := by
    intro t; rw [updown, hw, joinSchedules]
  have hlin : ∀ t, 0 < w → t ≤ w → linearSchedule 0 lr w t = lr * (t / w) := by
    intro t hw0 ht
    rw [linearSchedule, if_neg hw0.ne', min_eq_left ht]
    ring
  refine ⟨fun hw0 => ?_, fun s h1 hs => ?_⟩
  · rw [hv, if_pos hw0, hlin 0 hw0 (Nat.zero_le _)]
    simp
  · have hw0 : 0 < w := by omega
    have hw' : (w : ℝ) ≠ 0 := by positivity
    have e1 : updown lr frac total (s - 1) = lr * ((s - 1 : ℕ) / w) := by
      rw [hv, if_pos (by omega), hlin _ hw0 (by omega)]
    have e2 : updown lr frac total s = lr * (s / w) := by
      rcases Nat.lt_or_ge s w with h | h
      · rw [hv, if_pos h, hlin _ hw0 hs]
      · have : s = w := by omega
        rw [hv, if_neg (by omega), this, Nat.sub_self, linearSchedule]
        split_ifs
        · rw [div_self hw', mul_one]
        · simp [div_self hw']
    rw [e1, e2, Nat.cast_sub h1]
    push_cast
    field_simp
    ring

/-- A warm-up of ten steps: at the first step 0.1 is logged, 0 was used. -/
example : updown 1 0.1 100 1 = 0.1 ∧ updown 1 0.1 100 0 = 0 := by
  have h := updown_logged 1 0.1 (by norm_num) 100
  have hw : ⌊(0.1 : ℝ) * (100 : ℕ)⌋₊ = 10 := by norm_num
  rw [hw] at h
  have h1 := h.2 1 le_rfl (by norm_num)
  have h0 := h.1 (by norm_num)
  refine ⟨?_, h0⟩
  rw [h1, Nat.sub_self, h0]
  norm_num

/-- **C92 (`up_exp_down`).**  For a rate of at least `1e-6` the schedule rises linearly to the configured rate
during the warm-up, then falls, and never leaves `[1e-6, lr]` after the warm-up. -/
theorem upExpDown_schedule (lr frac : ℝ) (hlr : 1e-6 ≤ lr) (h0 : 0 ≤ frac) (total : ℕ) :
    let w := ⌊frac * total⌋₊
    (∀ t ≤ w, updown lr frac total t = upExpDown lr frac total t) ∧
      upExpDown lr frac total w = lr ∧
      (∀ t, w ≤ t → 1e-6 ≤ upExpDown lr frac total t ∧ upExpDown lr frac total t ≤ lr) ∧
      ∀ t t', w ≤ t → t ≤ t' → upExpDown lr frac total t' ≤ upExpDown lr frac total t := by
  intro w
  have hlr0 : 0 < lr := lt_of_lt_of_le (by norm_num) hlr
  have hx : 0 ≤ frac * (total : ℝ) := mul_nonneg h0 (Nat.cast_nonneg _)
  have hw : (pyInt (frac * total)).toNat = w := by
    rw [pyInt, if_pos hx]
    exact Int.floor_toNat _
  have hv : ∀ t, upExpDown lr frac total t = if t < w then linearSchedule 0 lr w t
      else expSchedule lr 1e-6 0.9 20000 (t - w) := by
    intro t; rw [upExpDown, hw, joinSchedules, show (0.0 : ℝ) = 0 by norm_num]
  have he : ∀ c : ℕ, expSchedule lr 1e-6 0.9 20000 c = max (lr * (0.9 : ℝ) ^ ((c : ℝ) / 20000)) 1e-6 := by
    intro c
    rw [expSchedule, if_neg (by norm_num)]
    rw [if_pos (by norm_num : (0.9 : ℝ) < 1)]
    split_ifs with h
    · subst h; simp
    · norm_num
  have hpk : upExpDown lr frac total w = lr := by
    rw [hv, if_neg (lt_irrefl _), Nat.sub_self, he]
    simp only [Nat.cast_zero, zero_div, Real.rpow_zero, mul_one]
    exact max_eq_left hlr
  have hmono : ∀ t t', w ≤ t → t ≤ t' → upExpDown lr frac total t' ≤ upExpDown lr frac total t := by
    intro t t' hwt htt
    rw [hv, hv, if_neg (by omega), if_neg (by omega), he, he]
    refine max_le_max ?_ le_rfl
    refine mul_le_mul_of_nonneg_left ?_ hlr0.le
    refine Real.rpow_le_rpow_of_exponent_ge (by norm_num) (by norm_num) ?_
    refine div_le_div_of_nonneg_right ?_ (by norm_num)
    exact_mod_cast Nat.sub_le_sub_right htt w
  refine ⟨fun t ht => ?_, hpk, fun t ht => ⟨?_, ?_⟩, hmono⟩
  · rcases Nat.lt_or_ge t w with h | h
    · rw [hv, if_pos h, updown, hw, joinSchedules, if_pos h]
    · have : t = w := by omega
      subst this
      rw [hpk, updown, hw, joinSchedules, if_neg (lt_irrefl _), Nat.sub_self, linearSchedule]
      split_ifs
      · rfl
      · simp
  · rw [hv, if_neg (by omega), he]
    exact le_max_right _ _
  · exact (hmono w t le_rfl ht).trans_eq hpk

end Discs
