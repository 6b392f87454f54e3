import Mathlib.Analysis.Convex.Hull
import Mathlib.Algebra.BigOperators.Field
import Mathlib.Tactic.Linarith
import Mathlib.Tactic.FieldSimp
import Mathlib.Tactic.NormNum
import Verif.Model.Learning
import Verif.Props.COExperiment

/-!
# Properties C54, C55, C67 – C71: training
-/

namespace Discs

open Finset

/-! ### C54: exponential moving average -/

section Ema

variable {ι : Type*}

private theorem emaRun_succ (decay : ℝ) (init : ι → ℝ) (p : ℕ → ι → ℝ) (n : ℕ) :
    emaRun decay init p (n + 1) = emaUpdate decay (emaRun decay init p n) (p n) := by
  rw [emaRun, emaRun, List.range_succ, List.foldl_append]
  rfl

theorem emaRun_step (decay : ℝ) (init : ι → ℝ) (p : ℕ → ι → ℝ) (n : ℕ) :
    (emaRun decay init p n).step = n := by
  induction n with
  | zero => rfl
  | succ n ih => rw [emaRun_succ, emaUpdate, ih]

/-- **C54.** After the first update the average is the parameters of that update; the initial parameters
leave no trace. -/
theorem ema_first (decay : ℝ) (init : ι → ℝ) (p : ℕ → ι → ℝ) : (emaRun decay init p 1).ema = p 0 := by
  funext i
  simp [emaRun, emaUpdate, applyEma]
  norm_num

/-- **C54.** Explicit weights of the average after `n + 1` updates: `decay ^ n` on the first parameters seen and
`(1 - decay) * decay ^ (n - 1 - t)` on those of update `t + 2`. -/
theorem ema_weights (decay : ℝ) (init : ι → ℝ) (p : ℕ → ι → ℝ) (n : ℕ) (i : ι) :
    (emaRun decay init p (n + 1)).ema i =
      decay ^ n * p 0 i + ∑ t ∈ range n, (1 - decay) * decay ^ (n - 1 - t) * p (t + 1) i := by
  induction n with
  | zero => simp [ema_first]
  | succ n ih =>
    rw [emaRun_succ]
    simp only [emaUpdate, emaRun_step, if_neg (Nat.succ_ne_zero n), applyEma]
    rw [ih, sum_range_succ, mul_add, mul_sum]
    have h : ∀ t ∈ range n, decay * ((1 - decay) * decay ^ (n - 1 - t) * p (t + 1) i) =
        (1 - decay) * decay ^ (n + 1 - 1 - t) * p (t + 1) i := by
      intro t ht
      have ht' := mem_range.1 ht
      rw [show n + 1 - 1 - t = (n - 1 - t) + 1 from by omega, pow_succ]
      ring
    rw [sum_congr rfl h]
    have h2 : n + 1 - 1 - n = 0 := by omega
    rw [h2, pow_zero, pow_succ]
    norm_num
    ring

/-- **C54.** For a decay in `[0, 1]` the average lies in the convex hull of the parameters seen. -/
theorem ema_convexHull (decay : ℝ) (h0 : 0 ≤ decay) (h1 : decay ≤ 1) (init : ι → ℝ) (p : ℕ → ι → ℝ) (n : ℕ) :
    (emaRun decay init p (n + 1)).ema ∈ convexHull ℝ {q | ∃ t ≤ n, q = p t} := by
  induction n with
  | zero =>
    rw [ema_first]
    exact subset_convexHull ℝ _ ⟨0, le_rfl, rfl⟩
  | succ n ih =>
    rw [emaRun_succ]
    have hmono : convexHull ℝ {q | ∃ t ≤ n, q = p t} ⊆ convexHull ℝ {q | ∃ t ≤ n + 1, q = p t} :=
      convexHull_mono fun q ⟨t, ht, hq⟩ => ⟨t, by omega, hq⟩
    have hnew : p (n + 1) ∈ convexHull ℝ {q | ∃ t ≤ n + 1, q = p t} :=
      subset_convexHull ℝ _ ⟨n + 1, le_rfl, rfl⟩
    have := (convex_convexHull ℝ _) (hmono ih) hnew h0 (sub_nonneg.2 h1) (by ring)
    have he : (emaUpdate decay (emaRun decay init p (n + 1)) (p (n + 1))).ema =
        decay • (emaRun decay init p (n + 1)).ema + (1 - decay) • p (n + 1) := by
      funext i
      simp only [emaUpdate, emaRun_step, if_neg (Nat.succ_ne_zero n), applyEma, Pi.add_apply, Pi.smul_apply,
        smul_eq_mul]
      norm_num
    rw [he]
    exact this

/-- **C54.** The average stays within any interval containing the parameters seen. -/
theorem ema_interval (decay : ℝ) (h0 : 0 ≤ decay) (h1 : decay ≤ 1) (init : ι → ℝ) (p : ℕ → ι → ℝ) (n : ℕ)
    (i : ι) (a b : ℝ) (hp : ∀ t ≤ n, a ≤ p t i ∧ p t i ≤ b) :
    a ≤ (emaRun decay init p (n + 1)).ema i ∧ (emaRun decay init p (n + 1)).ema i ≤ b := by
  have hsub : convexHull ℝ {q | ∃ t ≤ n, q = p t} ⊆ {q : ι → ℝ | a ≤ q i ∧ q i ≤ b} := by
    refine convexHull_min ?_ ?_
    · rintro q ⟨t, ht, rfl⟩; exact hp t ht
    · intro x hx y hy s t hs ht hst
      simp only [Set.mem_ofPred_eq, Pi.add_apply, Pi.smul_apply, smul_eq_mul] at hx hy ⊢
      obtain rfl : s = 1 - t := by linarith
      constructor <;> nlinarith [hx.1, hx.2, hy.1, hy.2]
  exact hsub (ema_convexHull decay h0 h1 init p n)

/-- **C54** (constant parameters are reproduced exactly). -/
theorem ema_const (decay : ℝ) (h0 : 0 ≤ decay) (h1 : decay ≤ 1) (init q : ι → ℝ) (n : ℕ) :
    (emaRun decay init (fun _ => q) (n + 1)).ema = q := by
  funext i
  have := ema_interval decay h0 h1 init (fun _ => q) n i (q i) (q i) fun _ _ => ⟨le_rfl, le_rfl⟩
  exact le_antisymm this.2 this.1

/-- Three updates with decay 1/2 of the parameters 1, 2, 4: the average is 1/4 + 1/2 + 2. -/
example : (emaRun (1 / 2) (fun _ : Unit => 9) (fun t _ => 2 ^ t) 3).ema () = 1 / 4 * 1 + 1 / 4 * 2 + 1 / 2 * 4 := by
  rw [ema_weights]
  simp [sum_range_succ]
  norm_num

end Ema

/-! ### C55: replay buffer -/

section Buffer

variable {V : Type*} {N n D : ℕ}

private theorem foldl_update_notMem (x : Fin n → V) (inds : Fin n → Fin N) (l : List (Fin n)) (buf : Fin N → V)
    (k : Fin N) (h : ∀ i ∈ l, inds i ≠ k) :
    l.foldl (fun buf i => Function.update buf (inds i) (x i)) buf k = buf k := by
  induction l generalizing buf with
  | nil => rfl
  | cons i l ih =>
    rw [List.foldl_cons, ih _ fun j hj => h j (List.mem_cons_of_mem _ hj),
      Function.update_of_ne (h i List.mem_cons_self).symm]

/-- **C55.** Entries whose index was not sampled are unchanged (the size is part of the type). -/
theorem bufferUpdate_other (buffer : Fin N → V) (inds : Fin n → Fin N) (x : Fin n → V) (k : Fin N)
    (h : ∀ i, inds i ≠ k) : bufferUpdate buffer inds x k = buffer k :=
  foldl_update_notMem x inds _ buffer k fun i _ => h i

/-- **C55.** The entry sampled in position `i` is replaced by row `i`. -/
theorem bufferUpdate_at (buffer : Fin N → V) (inds : Fin n → Fin N) (hinj : Function.Injective inds)
    (x : Fin n → V) (i : Fin n) : bufferUpdate buffer inds x (inds i) = x i := by
  have key : ∀ (l : List (Fin n)) (buf : Fin N → V), l.Nodup → i ∈ l →
      l.foldl (fun buf i => Function.update buf (inds i) (x i)) buf (inds i) = x i := by
    intro l
    induction l with
    | nil => intro _ _ h; exact absurd h List.not_mem_nil
    | cons j l ih =>
      intro buf hnd hmem
      rw [List.foldl_cons]
      rcases List.mem_cons.1 hmem with rfl | hm
      · rw [foldl_update_notMem x inds l _ _ fun j' hj hji => by
          obtain rfl := hinj hji
          exact (List.nodup_cons.1 hnd).1 hj, Function.update_self]
      · exact ih _ (List.nodup_cons.1 hnd).2 hm
  exact key _ buffer (List.nodup_finRange n) (List.mem_finRange i)

/-- **C55.** What `sample` returns: row `i` is the fresh row if its reinitialisation bit is one and the buffer
entry it was sampled from if the bit is zero. -/
theorem bufferSample_row (buffer : Fin N → Fin D → ℤ) (inds : Fin n → Fin N) (fresh : Fin n → Fin D → ℤ)
    (reinit : Fin n → ℤ) (i : Fin n) :
    (reinit i = 1 → bufferSample buffer inds fresh reinit i = fresh i) ∧
      (reinit i = 0 → bufferSample buffer inds fresh reinit i = buffer (inds i)) := by
  constructor <;> intro h <;> funext j <;> simp [bufferSample, h]

/-- **C55** (any history): if every row ever written satisfies `P`, so does every entry after any sequence of
updates. -/
theorem buffer_history (P : V → Prop) (buffer : Fin N → V) (hb : ∀ k, P (buffer k))
    (ops : List (Σ n, (Fin n → Fin N) × (Fin n → V))) (hops : ∀ o ∈ ops, ∀ i, P (o.2.2 i)) (k : Fin N) :
    P (ops.foldl (fun buf o => bufferUpdate buf o.2.1 o.2.2) buffer k) := by
  induction ops generalizing buffer with
  | nil => exact hb k
  | cons o ops ih =>
    rw [List.foldl_cons]
    refine ih _ (fun k => ?_) fun o' ho' => hops o' (List.mem_cons_of_mem _ ho')
    have hx := hops o List.mem_cons_self
    have key : ∀ (l : List (Fin o.1)) (buf : Fin N → V), (∀ k, P (buf k)) →
        ∀ k, P (l.foldl (fun buf i => Function.update buf (o.2.1 i) (o.2.2 i)) buf k) := by
      intro l
      induction l with
      | nil => exact fun _ h => h
      | cons i l ihl =>
        intro buf h
        refine ihl _ fun k => ?_
        dsimp only
        by_cases hk : k = o.2.1 i
        · rw [hk, Function.update_self]; exact hx i
        · rw [Function.update_of_ne hk]; exact h k
    exact key _ buffer hb k

/-- **C55** (any history): an entry not sampled by any of the updates keeps its initial value. -/
theorem buffer_history_other (buffer : Fin N → V) (ops : List (Σ n, (Fin n → Fin N) × (Fin n → V))) (k : Fin N)
    (h : ∀ o ∈ ops, ∀ i, o.2.1 i ≠ k) :
    ops.foldl (fun buf o => bufferUpdate buf o.2.1 o.2.2) buffer k = buffer k := by
  induction ops generalizing buffer with
  | nil => rfl
  | cons o ops ih =>
    rw [List.foldl_cons, ih _ fun o' ho' => h o' (List.mem_cons_of_mem _ ho'),
      bufferUpdate_other _ _ _ _ (h o List.mem_cons_self)]

/-- A buffer of five entries, rows 1 and 3 replaced. -/
example : bufferUpdate ![10, 11, 12, 13, 14] ![(1 : Fin 5), 3] ![7, 8] = ![10, 7, 12, 8, 14] := by decide

/-! ### C67: persistent chains go back where they came from -/

theorem unshard_shard {dev per : ℕ} (x : Fin (dev * per) → V) : unshard (shard x) = x := by
  funext b
  exact congrArg x (finProdFinEquiv.apply_symm_apply b)

theorem shard_unshard {dev per : ℕ} (x : Fin dev → Fin per → V) : shard (unshard x) = x := by
  funext d j; simp [unshard, shard]

/-- The reshape is row-major: device `d` holds rows `d * per, …, d * per + per - 1`. -/
theorem shard_rows {dev per : ℕ} (x : Fin (dev * per) → V) (d : Fin dev) (j : Fin per) (b : Fin (dev * per))
    (hb : b.val = d.val * per + j.val) : shard x d j = x b := by
  unfold shard
  congr 1
  ext
  rw [finProdFinEquiv_apply_val, hb]
  ring

/-- **C67.** For chains that do not interact within a device (`one` is the map of a single chain, given the
device's sampler state), the buffer entry a chain was taken from receives that chain's own result after all
persistent steps, the loss is computed on the same samples, and no other entry changes. -/
theorem batchProcessing_rows {S : Type*} {dev per : ℕ}
    (one : ℕ → Fin dev → S → Fin per → (Fin D → ℤ) → Fin D → ℤ) (upd : ℕ → Fin dev → S → S) (pcd : ℕ)
    (s : Fin dev → S) (buffer : Fin N → Fin D → ℤ) (inds : Fin (dev * per) → Fin N)
    (hinj : Function.Injective inds) (fresh : Fin (dev * per) → Fin D → ℤ) (reinit : Fin (dev * per) → ℤ) :
    let stp := fun t d x s => (fun j => one t d s j (x j), upd t d s)
    let out := batchProcessing stp pcd s buffer inds fresh reinit
    let stateAt := fun (d : Fin dev) (t : ℕ) => (List.range t).foldl (fun s t => upd t d s) (s d)
    (∀ (d : Fin dev) (j : Fin per) (b : Fin (dev * per)), b.val = d.val * per + j.val →
      out.2.2 (inds b) = out.1 d j ∧
      out.1 d j = (List.range pcd).foldl (fun x t => one t d (stateAt d t) j x)
        (bufferSample buffer inds fresh reinit b)) ∧
    ∀ k, (∀ b, inds b ≠ k) → out.2.2 k = buffer k := by
  intro stp out stateAt
  refine ⟨fun d j b hb => ⟨?_, ?_⟩, fun k hk => bufferUpdate_other _ _ _ _ hk⟩
  · show bufferUpdate buffer inds (unshard out.1) (inds b) = _
    rw [bufferUpdate_at _ _ hinj, ← shard_rows (unshard out.1) d j b hb, shard_unshard]
  · have key : ∀ (n : ℕ) (x : Fin dev → Fin per → Fin D → ℤ),
        pcdSteps stp n x s = (fun d j => (List.range n).foldl (fun x t => one t d (stateAt d t) j x) (x d j),
          fun d => stateAt d n) := by
      intro n x
      induction n with
      | zero => rfl
      | succ n ih =>
        have : pcdSteps stp (n + 1) x s = (fun d => (stp n d ((pcdSteps stp n x s).1 d) ((pcdSteps stp n x s).2 d)).1,
            fun d => (stp n d ((pcdSteps stp n x s).1 d) ((pcdSteps stp n x s).2 d)).2) := by
          rw [pcdSteps, List.range_succ, List.foldl_append]; rfl
        rw [this, ih]
        simp only [stp, stateAt, List.range_succ, List.foldl_append, List.foldl_cons, List.foldl_nil]
    show (pcdSteps stp pcd _ s).1 d j = _
    rw [key]
    dsimp only
    rw [shard_rows _ d j b hb]

end Buffer

/-! ### C68: data-parallel training computes the full-batch gradient -/

/-- **C68.** Averaging the per-device mean gradients over the devices gives the mean over the whole batch. -/
theorem pmean_full {dev per : ℕ} (g : Fin (dev * per) → ℝ) :
    pmean (fun d => localMean (shard g d)) = (∑ b, g b) / ((dev * per : ℕ) : ℝ) := by
  simp only [pmean, localMean]
  rw [← sum_div, div_div, ← Fintype.sum_prod_type' fun d j => shard g d j]
  congr 1
  · exact Equiv.sum_comp finProdFinEquiv g
  · push_cast; ring

/-- Two devices of two examples each. -/
example : pmean (fun d => localMean (shard (dev := 2) (per := 2) ![(1 : ℝ), 2, 3, 6] d)) = 3 := by
  rw [pmean_full]
  simp [Fin.sum_univ_four]
  norm_num

/-! ### C69: the warm-up schedule -/

private theorem linear_up (lr : ℝ) (hlr : 0 ≤ lr) (L t t' : ℕ) (hL : 0 < L) (htt : t ≤ t') :
    0 ≤ linearSchedule 0 lr L t ∧ linearSchedule 0 lr L t ≤ linearSchedule 0 lr L t' ∧
      linearSchedule 0 lr L t ≤ lr ∧ linearSchedule 0 lr L 0 = 0 := by
  have hL' : (0 : ℝ) < L := by positivity
  have hv : ∀ t, linearSchedule 0 lr L t = lr * (((min t L : ℕ) : ℝ) / L) := by
    intro t; rw [linearSchedule, if_neg hL.ne']; ring
  have h1 : ∀ t : ℕ, 0 ≤ ((min t L : ℕ) : ℝ) / L ∧ ((min t L : ℕ) : ℝ) / L ≤ 1 := by
    refine fun t => ⟨by positivity, ?_⟩
    rw [div_le_one hL']
    exact_mod_cast min_le_right t L
  have hmono : ((min t L : ℕ) : ℝ) / L ≤ ((min t' L : ℕ) : ℝ) / L := by
    refine div_le_div_of_nonneg_right ?_ hL'.le
    exact_mod_cast min_le_min_right L htt
  rw [hv, hv, hv]
  refine ⟨mul_nonneg hlr (h1 t).1, mul_le_mul_of_nonneg_left hmono hlr, ?_, by simp⟩
  calc lr * (((min t L : ℕ) : ℝ) / L) ≤ lr * 1 := mul_le_mul_of_nonneg_left (h1 t).2 hlr
    _ = lr := mul_one _

/-- **C69.** The `updown` learning rate with warm-up fraction in `[0, 1]` always lies in `[0, lr]`, rises until the
end of the warm-up where it equals `lr`, then never rises again, and ends at `lr / 100` if any steps remain. -/
theorem updown_schedule (lr frac : ℝ) (hlr : 0 < lr) (h0 : 0 ≤ frac) (h1 : frac ≤ 1) (total : ℕ) :
    let w := ⌊frac * total⌋₊
    (∀ t, 0 ≤ updown lr frac total t ∧ updown lr frac total t ≤ lr) ∧
      (∀ t t', t ≤ t' → t' ≤ w → updown lr frac total t ≤ updown lr frac total t') ∧
      updown lr frac total w = lr ∧
      (∀ t t', w ≤ t → t ≤ t' → updown lr frac total t' ≤ updown lr frac total t) ∧
      (w < total → updown lr frac total total = lr / 100) := by
  intro w
  have hx : 0 ≤ frac * (total : ℝ) := mul_nonneg h0 (Nat.cast_nonneg _)
  have hw : (pyInt (frac * total)).toNat = w := by
    rw [pyInt, if_pos hx]
    exact Int.floor_toNat _
  have hwt : w ≤ total := by
    refine Nat.floor_le_of_le ?_
    calc frac * (total : ℝ) ≤ 1 * total := mul_le_mul_of_nonneg_right h1 (Nat.cast_nonneg _)
      _ = total := one_mul _
  have hv : ∀ t, updown lr frac total t = if t < w then linearSchedule 0 lr w t
      else linearSchedule lr (lr * 0.01) (total - w) (t - w) := by
    intro t; rw [updown, hw, joinSchedules]
  have hfin : 0 < lr * 0.01 := by positivity
  have hle : lr * 0.01 ≤ lr := by nlinarith
  have hpeak : updown lr frac total w = lr := by
    rw [hv, if_neg (lt_irrefl w), Nat.sub_self, linearSchedule]
    split_ifs
    · rfl
    · simp
  have hpos : ∀ t, t < w → 0 < w := fun t h => by omega
  refine ⟨fun t => ?_, fun t t' htt hw' => ?_, hpeak, fun t t' hwt' htt => ?_, fun hlt => ?_⟩
  · rw [hv]
    split_ifs with h
    · obtain ⟨a, _, b, _⟩ := linear_up lr hlr.le w t t (hpos t h) le_rfl
      exact ⟨a, b⟩
    · obtain ⟨a, _, _, b, _⟩ := linear_schedule lr (lr * 0.01) hle hfin (total - w) (t - w) (t - w) le_rfl
      exact ⟨a.le, b⟩
  · rcases Nat.lt_or_ge t' w with h | h
    · rw [hv, hv, if_pos (by omega), if_pos h]
      exact (linear_up lr hlr.le w t t' (by omega) htt).2.1
    · obtain rfl : t' = w := by omega
      rw [hpeak, hv]
      split_ifs with h'
      · exact (linear_up lr hlr.le _ t t (by omega) le_rfl).2.2.1
      · exact (linear_schedule lr (lr * 0.01) hle hfin _ _ _ le_rfl).2.2.2.1
  · rw [hv, hv, if_neg (by omega), if_neg (by omega)]
    exact (linear_schedule lr (lr * 0.01) hle hfin _ _ _ (by omega)).2.1
  · rw [hv, if_neg (by omega),
      (linear_schedule lr (lr * 0.01) hle hfin (total - w) 0 0 le_rfl).2.2.2.2 (by omega)]
    norm_num
    ring

/-! ### C70: training batches -/

section Batches

variable {α : Type*}

theorem batchDrop_spec (k : ℕ) (hk : 0 < k) (l : List α) :
    (batchDrop k l).length = l.length / k ∧ (∀ b ∈ batchDrop k l, b.length = k) ∧
      (batchDrop k l).flatten = l.take (l.length / k * k) := by
  induction l using batchDrop.induct k with
  | case1 l h ih =>
    rw [batchDrop, dif_pos h]
    obtain ⟨h1, h2, h3⟩ := ih
    have hdiv : l.length / k = (l.length - k) / k + 1 := by
      rw [Nat.div_eq_sub_div hk h.2]
    rw [List.length_drop] at h1 h3
    refine ⟨by rw [List.length_cons, h1, hdiv], ?_, ?_⟩
    · intro b hb
      rcases List.mem_cons.1 hb with rfl | hb
      · rw [List.length_take]; omega
      · exact h2 b hb
    · rw [List.flatten_cons, h3, hdiv, Nat.add_mul, Nat.one_mul, Nat.add_comm _ k, List.take_add]
  | case2 l h =>
    rw [batchDrop, dif_neg h]
    have : l.length / k = 0 := Nat.div_eq_of_lt (by omega)
    simp [this]

/-- **C70.** Every training batch has exactly `localDev` rows of `perDev` examples; read in order the batches are
the first `⌊n / (localDev·perDev)⌋` full batches of the data, so nothing is repeated or reordered and fewer than
one process batch of examples is dropped. -/
theorem deviceBatches_spec (localDev perDev : ℕ) (hd : 0 < localDev) (hp : 0 < perDev) (l : List α) :
    let bs := deviceBatches (localDev * perDev) localDev l
    bs.length = l.length / (localDev * perDev) ∧
      (∀ b ∈ bs, b.length = localDev ∧ ∀ r ∈ b, r.length = perDev) ∧
      bs.flatten.flatten = l.take (l.length / (localDev * perDev) * (localDev * perDev)) ∧
      l.length - bs.flatten.flatten.length < localDev * perDev := by
  intro bs
  have hq : localDev * perDev / localDev = perDev := Nat.mul_div_cancel_left _ hd
  obtain ⟨h1, h2, h3⟩ := batchDrop_spec perDev hp l
  obtain ⟨g1, g2, g3⟩ := batchDrop_spec localDev hd (batchDrop perDev l)
  have hbs : bs = batchDrop localDev (batchDrop perDev l) := by
    show batchDrop localDev (batchDrop (localDev * perDev / localDev) l) = _
    rw [hq]
  have hcount : bs.length = l.length / (localDev * perDev) := by
    rw [hbs, g1, h1, Nat.div_div_eq_div_mul, Nat.mul_comm]
  have hrow : ∀ b ∈ bs, b.length = localDev ∧ ∀ r ∈ b, r.length = perDev := by
    intro b hb
    rw [hbs] at hb
    refine ⟨g2 b hb, fun r hr => h2 r ?_⟩
    have hmem : r ∈ (batchDrop localDev (batchDrop perDev l)).flatten := List.mem_flatten.2 ⟨b, hb, hr⟩
    rw [g3] at hmem
    exact List.mem_of_mem_take hmem
  have hflat : bs.flatten.flatten = l.take (l.length / (localDev * perDev) * (localDev * perDev)) := by
    have hpre : bs.flatten.flatten <+: (batchDrop perDev l).flatten := by
      rw [hbs, g3]
      exact ⟨((batchDrop perDev l).drop _).flatten, by rw [← List.flatten_append, List.take_append_drop]⟩
    rw [h3] at hpre
    have hpre' := hpre.trans (List.take_prefix _ _)
    rw [List.prefix_iff_eq_take.1 hpre']
    congr 1
    have hlen : ∀ bs : List (List (List α)), (∀ b ∈ bs, b.length = localDev ∧ ∀ r ∈ b, r.length = perDev) →
        bs.flatten.flatten.length = bs.length * (localDev * perDev) := by
      intro bs hbs
      induction bs with
      | nil => simp
      | cons b bs ih =>
        rw [List.flatten_cons, List.flatten_append, List.length_append, ih fun c hc => hbs c (List.mem_cons_of_mem _ hc),
          List.length_cons]
        have hb := hbs b List.mem_cons_self
        have : b.flatten.length = b.length * perDev := by
          rw [List.length_flatten, List.map_congr_left hb.2, List.map_const', List.sum_replicate, smul_eq_mul]
        rw [this, hb.1]
        ring
    rw [hlen bs hrow, hcount]
  refine ⟨hcount, hrow, hflat, ?_⟩
  rw [hflat, List.length_take]
  have hpos : 0 < localDev * perDev := Nat.mul_pos hd hp
  have := Nat.div_add_mod l.length (localDev * perDev)
  have hm := Nat.mod_lt l.length hpos
  have hc : l.length / (localDev * perDev) * (localDev * perDev) =
    localDev * perDev * (l.length / (localDev * perDev)) := Nat.mul_comm _ _
  omega

/-- **C70.** With equally many devices on every process, a batch size accepted by the check is split without
remainder: processes × local devices × examples per device is the configured batch size. -/
theorem perProcess_exact (batch procs localDev pb : ℕ) (hp : 0 < procs) (hl : 0 < localDev)
    (h : perProcessBatch batch (procs * localDev) procs = some pb) :
    procs * (localDev * (pb / localDev)) = batch := by
  unfold perProcessBatch at h
  split_ifs at h with hc
  obtain rfl := Option.some.inj h
  obtain ⟨q, hq⟩ : procs * localDev ∣ batch := ⟨batch / (procs * localDev), by rw [Nat.mul_comm, hc]⟩
  subst hq
  rw [Nat.mul_assoc, Nat.mul_div_cancel_left _ hp, Nat.mul_div_cancel_left _ hl]

/-- Seven examples, two devices, one example per device and step: three batches, one example dropped. -/
example : deviceBatches 2 2 [1, 2, 3, 4, 5, 6, 7] = [[[1], [2]], [[3], [4]], [[5], [6]]] := by
  simp [deviceBatches, batchDrop]

end Batches

/-! ### C71: initial image distribution and key generator -/

/-- **C71.** The mean image always is a valid, non-degenerate Bernoulli parameter, as needed by
`image_base` and `ebm_ais`, unless there are no images; it is the true mean whenever that lies in `[0.01, 0.99]`. -/
theorem dataMean_valid {l : List ℝ} (hl : l ≠ []) :
    ∃ m, dataMean l = some m ∧ 0 < m ∧ m < 1 ∧
      (0.01 ≤ l.sum / l.length / 255 → l.sum / l.length / 255 ≤ 0.99 → m = l.sum / l.length / 255) := by
  unfold dataMean clip
  refine ⟨_, if_neg hl, lt_min (lt_max_of_lt_right (by norm_num)) (by norm_num),
    lt_of_le_of_lt (min_le_right _ _) (by norm_num), fun h1 h2 => ?_⟩
  rw [max_eq_left h1, min_eq_left h2]

/-- **C71.** Successive calls with positive counts use strictly increasing counters, hence pairwise different keys
whenever `fold_in` is injective in its data. -/
theorem rngGen_distinct {K : Type*} (foldIn : K → ℕ → K) (base : K) (hinj : Function.Injective (foldIn base))
    (counts : ℕ → ℕ) (hpos : ∀ i, 0 < counts i) :
    let run := fun n => (List.range n).foldl
      (fun (st : ℕ × List K) i => ((rngAdvance foldIn base st.1 (counts i)).1,
        st.2 ++ [(rngAdvance foldIn base st.1 (counts i)).2])) (0, [])
    ∀ n, (run n).2.length = n ∧ (run n).2.Nodup := by
  intro run n
  have key : ∀ n, (run n).2.length = n ∧ (run n).2.Nodup ∧
      ∀ q ∈ (run n).2, ∃ c ≤ (run n).1, q = foldIn base c := by
    intro n
    induction n with
    | zero => exact ⟨rfl, List.nodup_nil, fun q hq => absurd hq List.not_mem_nil⟩
    | succ n ih =>
      obtain ⟨h1, h2, h3⟩ := ih
      have hr : run (n + 1) = ((run n).1 + counts n, (run n).2 ++ [foldIn base ((run n).1 + counts n)]) := by
        simp only [run, List.range_succ, List.foldl_append, List.foldl_cons, List.foldl_nil, rngAdvance]
      rw [hr]
      refine ⟨by simp [h1], ?_, ?_⟩
      · rw [List.nodup_append]
        refine ⟨h2, List.nodup_singleton _, fun a ha b hb hab => ?_⟩
        obtain ⟨c, hc, rfl⟩ := h3 a ha
        rw [List.mem_singleton.1 hb] at hab
        have := hinj hab
        have := hpos n
        omega
      · intro q hq
        rcases List.mem_append.1 hq with hq | hq
        · obtain ⟨c, hc, rfl⟩ := h3 q hq
          exact ⟨c, by simp only; omega, rfl⟩
        · exact ⟨_, le_rfl, List.mem_singleton.1 hq⟩
  exact ⟨(key n).1, (key n).2.1⟩

end Discs
