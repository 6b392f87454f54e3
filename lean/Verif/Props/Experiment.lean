import Mathlib.Order.Bounds.Basic
import Mathlib.Tactic.Linarith
import Mathlib.Tactic.FieldSimp
import Mathlib.Tactic.NormNum
import Verif.Model.Experiment

/-!
# Properties C47, C52, C66: what a sampling run executes, records and reports

Specification: `Spec.keyAt` and `Spec.trajectory` are the plain iteration "step `t` uses the key
obtained by folding in `1, …, t`", without burn-in, recording or metrics.
-/

namespace Discs

variable {K X S Y Z : Type*}

namespace Spec

/-- The key of step `n`: `fold_in` of `1, …, n`, one after the other. -/
def keyAt (foldIn : K → ℤ → K) (k : K) : ℕ → K
  | 0 => k
  | n + 1 => foldIn (keyAt foldIn k n) ((n : ℤ) + 1)

/-- Samples and sampler state after `n` steps; `step t` is the kernel of step `t`. -/
def trajectory (foldIn : K → ℤ → K) (step : ℕ → K → X → S → X × S) (k : K) (x : X) (s : S) :
    ℕ → X × S
  | 0 => (x, s)
  | n + 1 =>
    step (n + 1) (keyAt foldIn k (n + 1)) (trajectory foldIn step k x s n).1
      (trajectory foldIn step k x s n).2

end Spec

open Spec

/-! ### Python ranges -/

theorem pyRange_nil {a b : ℤ} (h : b ≤ a) : pyRange a b = [] := by
  have : (b - a).toNat = 0 := by omega
  simp [pyRange, this]

theorem pyRange_succ {a b : ℤ} (h : a ≤ b) : pyRange a (b + 1) = pyRange a b ++ [b] := by
  have h1 : (b + 1 - a).toNat = (b - a).toNat + 1 := by omega
  have h2 : a + ((b - a).toNat : ℤ) = b := by omega
  rw [pyRange, h1, List.range_succ, List.map_append, pyRange, List.map_cons, List.map_nil, h2]

theorem pyRange_length (a b : ℤ) : (pyRange a b).length = (b - a).toNat := by simp [pyRange]

theorem pyRange_append {a b c : ℤ} (hab : a ≤ b) (hbc : b ≤ c) :
    pyRange a b ++ pyRange b c = pyRange a c := by
  obtain ⟨n, rfl⟩ : ∃ n : ℕ, c = b + n := ⟨(c - b).toNat, by omega⟩
  clear hbc
  induction n with
  | zero => simp [pyRange_nil]
  | succ n ih =>
    have : b + ((n + 1 : ℕ) : ℤ) = (b + n) + 1 := by push_cast; ring
    rw [this, pyRange_succ (by omega), pyRange_succ (by omega), ← ih, List.append_assoc]

/-! ### The burn-in length -/

theorem pyInt_bounds {L : ℕ} {ratio : ℝ} (h0 : 0 ≤ ratio) (h1 : ratio ≤ 1) :
    ∃ n : ℕ, pyInt (L * ratio) = n ∧ n = ⌊(L : ℝ) * ratio⌋₊ ∧ n ≤ L := by
  have hx : 0 ≤ (L : ℝ) * ratio := mul_nonneg (Nat.cast_nonneg _) h0
  refine ⟨⌊(L : ℝ) * ratio⌋₊, ?_, rfl, ?_⟩
  · rw [pyInt, if_pos hx, Int.natCast_floor_eq_floor hx]
  · refine Nat.floor_le_of_le ?_
    calc (L : ℝ) * ratio ≤ L * 1 := mul_le_mul_of_nonneg_left h1 (Nat.cast_nonneg _)
      _ = L := mul_one _

/-! ### C47 -/

/-- The plain iteration of the compiled step of a driver. -/
def Driver.traj (d : Driver K X S Y Z) (k : K) (x : X) (s : S) (n : ℕ) : X × S :=
  trajectory d.foldIn (fun _ k x s => ((d.stp k x s).1, (d.stp k x s).2.1)) k x s n

/-- The acceptance ratio reported by step `n + 1` of the plain iteration. -/
def Driver.acc (d : Driver K X S Y Z) (k : K) (x : X) (s : S) (n : ℕ) : ℝ :=
  (d.stp (keyAt d.foldIn k (n + 1)) (d.traj k x s n).1 (d.traj k x s n).2).2.2

/-- What both loops hold after `n` steps of which the last `n - n0` are recorded. -/
private def varsAt (d : Driver K X S Y Z) (save metrics : Bool) (e : ℤ) (k : K) (x : X) (s : S)
    (n0 n : ℕ) : ChainVars K X S Y Z where
  rng := keyAt d.foldIn k n
  x := (d.traj k x s n).1
  state := (d.traj k x s n).2
  chain := (List.range' (n0 + 1) (n - n0)).map fun t => d.mapped (d.traj k x s t).1
  samples := if save then
      ((List.range' 1 n).filter fun t : ℕ => e ∣ (t : ℤ)).map fun t => d.selected (d.traj k x s t).1
    else []
  accRatios := if metrics then (List.range n).map (d.acc k x s) else []
  hops := if metrics then
      (List.range n).map fun t => d.hop (d.traj k x s t).1 (d.traj k x s (t + 1)).1
    else []

private theorem samples_step (d : Driver K X S Y Z) (save : Bool) (e : ℤ) (k : K) (x : X) (s : S)
    (n : ℕ) :
    (if save ∧ ((n : ℤ) + 1) % e = 0 then
      (if save then ((List.range' 1 n).filter fun t : ℕ => e ∣ (t : ℤ)).map
        fun t => d.selected (d.traj k x s t).1 else []) ++ [d.selected (d.traj k x s (n + 1)).1]
    else if save then ((List.range' 1 n).filter fun t : ℕ => e ∣ (t : ℤ)).map
        fun t => d.selected (d.traj k x s t).1 else []) =
    if save then ((List.range' 1 (n + 1)).filter fun t : ℕ => e ∣ (t : ℤ)).map
        fun t => d.selected (d.traj k x s t).1 else [] := by
  cases save with
  | false => simp
  | true =>
    have hc : ((n + 1 : ℕ) : ℤ) = (n : ℤ) + 1 := by push_cast; ring
    simp only [if_true, true_and, List.range'_1_concat, List.filter_append, List.map_append]
    rw [show 1 + n = n + 1 from by omega]
    by_cases h : ((n : ℤ) + 1) % e = 0
    · have hd : e ∣ ((n + 1 : ℕ) : ℤ) := by rw [hc]; exact Int.dvd_of_emod_eq_zero h
      rw [if_pos h, List.filter_cons_of_pos (by simpa using hd)]
      rfl
    · have hd : ¬ e ∣ ((n + 1 : ℕ) : ℤ) := by
        rw [hc]; exact fun h' => h (Int.emod_eq_zero_of_dvd h')
      rw [if_neg h, List.filter_cons_of_neg (by simpa using hd)]
      simp

private theorem burnIn_vars (d : Driver K X S Y Z) (save metrics : Bool) (e : ℤ) (k : K) (x : X) (s : S)
    (n : ℕ) :
    (pyRange 1 (n + 1)).foldl (burnInBody d save metrics e) ⟨k, x, s, [], [], [], []⟩ =
      varsAt d save metrics e k x s n n := by
  induction n with
  | zero => cases save <;> cases metrics <;> simp [pyRange_nil, varsAt, keyAt, Driver.traj, trajectory]
  | succ n ih =>
    have hc : ((n + 1 : ℕ) : ℤ) = (n : ℤ) + 1 := by push_cast; ring
    rw [hc, pyRange_succ (by omega), List.foldl_append, ih, List.foldl_cons, List.foldl_nil]
    simp only [burnInBody, varsAt]
    congr 1
    · simp
    · exact samples_step d save e k x s n
    · cases metrics
      · simp
      · simp only [if_true, List.range_succ, List.map_append]; rfl
    · cases metrics
      · simp
      · simp only [if_true, List.range_succ, List.map_append]; rfl

private theorem mixing_vars (d : Driver K X S Y Z) (save metrics : Bool) (e : ℤ) (k : K) (x : X) (s : S)
    (n0 m : ℕ) :
    (pyRange ((n0 : ℤ) + 1) (n0 + m + 1)).foldl (mixingBody d save metrics e)
        (varsAt d save metrics e k x s n0 n0) =
      varsAt d save metrics e k x s n0 (n0 + m) := by
  induction m with
  | zero => simp [pyRange_nil]
  | succ m ih =>
    have hc : (n0 : ℤ) + ((m + 1 : ℕ) : ℤ) + 1 = ((n0 : ℤ) + m + 1) + 1 := by push_cast; ring
    rw [hc, pyRange_succ (by omega), List.foldl_append, ih, List.foldl_cons, List.foldl_nil]
    have hs := samples_step d save e k x s (n0 + m)
    have hcn : ((n0 + m : ℕ) : ℤ) = (n0 : ℤ) + m := by push_cast; ring
    rw [hcn] at hs
    have hkey : d.foldIn (keyAt d.foldIn k (n0 + m)) ((n0 : ℤ) + m + 1) =
        keyAt d.foldIn k (n0 + (m + 1)) := by
      rw [← hcn]; rfl
    have htr : ((d.stp (keyAt d.foldIn k (n0 + (m + 1))) (d.traj k x s (n0 + m)).1
        (d.traj k x s (n0 + m)).2).1, (d.stp (keyAt d.foldIn k (n0 + (m + 1)))
        (d.traj k x s (n0 + m)).1 (d.traj k x s (n0 + m)).2).2.1) = d.traj k x s (n0 + (m + 1)) := rfl
    have h1 := congrArg Prod.fst htr
    have h2 := congrArg Prod.snd htr
    simp only at h1 h2
    simp only [mixingBody, varsAt, hkey, h1, h2]
    congr 1
    · rw [show n0 + (m + 1) - n0 = (n0 + m - n0) + 1 from by omega, List.range'_1_concat,
        List.map_append, show n0 + 1 + (n0 + m - n0) = n0 + (m + 1) from by omega]
      rfl
    · cases metrics
      · simp
      · rw [show n0 + (m + 1) = (n0 + m) + 1 from rfl]
        simp only [if_true, List.range_succ, List.map_append]; rfl
    · cases metrics
      · simp
      · rw [show n0 + (m + 1) = (n0 + m) + 1 from rfl]
        simp only [if_true, List.range_succ, List.map_append]; rfl

private theorem samplingChain_vars (d : Driver K X S Y Z) (save metrics : Bool) (e : ℤ) (L : ℕ)
    (ratio : ℝ) (h0 : 0 ≤ ratio) (h1 : ratio ≤ 1) (k : K) (x : X) (s : S) :
    samplingChain d save metrics e L ratio k x s =
      varsAt d save metrics e k x s ⌊(L : ℝ) * ratio⌋₊ L := by
  obtain ⟨n, hn, hn', hle⟩ := pyInt_bounds (L := L) h0 h1
  rw [← hn']
  obtain ⟨m, rfl⟩ := Nat.exists_eq_add_of_le hle
  simp only [samplingChain, burnInLength, hn]
  rw [burnIn_vars]
  have : (1 : ℤ) + ((n + m : ℕ) : ℤ) = (n : ℤ) + m + 1 := by push_cast; ring
  rw [this, mixing_vars]

/-- C47.  For every chain length and burn-in ratio in `[0, 1]` the run ends in the state reached after
exactly `chain_length` steps, with every key used once in order; what is recorded for the ESS is exactly
the states after steps `int(L·ratio) + 1, …, L`. -/
theorem sampling_run (d : Driver K X S Y Z) (save metrics : Bool) (e : ℤ) (L : ℕ) (ratio : ℝ)
    (h0 : 0 ≤ ratio) (h1 : ratio ≤ 1) (k : K) (x : X) (s : S) :
    let v := samplingChain d save metrics e L ratio k x s
    let n0 := ⌊(L : ℝ) * ratio⌋₊
    (v.x, v.state) = d.traj k x s L ∧ v.rng = keyAt d.foldIn k L ∧
      v.chain = (List.range' (n0 + 1) (L - n0)).map (fun t => d.mapped (d.traj k x s t).1) ∧
      v.chain.length = L - n0 := by
  rw [samplingChain_vars d save metrics e L ratio h0 h1]
  exact ⟨rfl, rfl, rfl, by simp [varsAt]⟩

/-- C47 (side outputs): one acceptance ratio and one hop per step when metrics are on; saved samples
are those of the steps divisible by `save_every_steps`, burn-in included. -/
theorem sampling_outputs (d : Driver K X S Y Z) (save metrics : Bool) (e : ℤ) (L : ℕ) (ratio : ℝ)
    (h0 : 0 ≤ ratio) (h1 : ratio ≤ 1) (k : K) (x : X) (s : S) :
    let v := samplingChain d save metrics e L ratio k x s
    v.accRatios = (if metrics then (List.range L).map (d.acc k x s) else []) ∧
      v.hops = (if metrics then
        (List.range L).map fun t => d.hop (d.traj k x s t).1 (d.traj k x s (t + 1)).1 else []) ∧
      v.samples = (if save then ((List.range' 1 L).filter fun t : ℕ => e ∣ (t : ℤ)).map
        fun t => d.selected (d.traj k x s t).1 else []) := by
  rw [samplingChain_vars d save metrics e L ratio h0 h1]
  exact ⟨rfl, rfl, rfl⟩

private theorem foldl_count {V : Type*} (f : V → ℤ → V) (c : V → ℕ) (h : ∀ v t, c (f v t) = c v + 1)
    (l : List ℤ) (v : V) : c (l.foldl f v) = c v + l.length := by
  induction l generalizing v with
  | nil => simp
  | cons t l ih => rw [List.foldl_cons, ih, h, List.length_cons]; omega

/-- C47 (counting, any ratio): with a sampler that counts its own calls, the run makes
`max(b, 0) + max(L - b, 0)` of them, where `b = int(L·ratio)`. -/
theorem sampling_count (d : Driver K X S Y Z) (save metrics : Bool) (e : ℤ) (L : ℕ) (ratio : ℝ)
    (cnt : S → ℕ) (hcnt : ∀ k x s, cnt (d.stp k x s).2.1 = cnt s + 1) (k : K) (x : X) (s : S) :
    cnt (samplingChain d save metrics e L ratio k x s).state =
      cnt s + (pyInt (L * ratio)).toNat + ((L : ℤ) - pyInt (L * ratio)).toNat := by
  simp only [samplingChain]
  rw [foldl_count _ (fun v : ChainVars K X S Y Z => cnt v.state) (fun _ _ => hcnt _ _ _),
    foldl_count _ (fun v : ChainVars K X S Y Z => cnt v.state) (fun _ _ => hcnt _ _ _),
    pyRange_length, pyRange_length, burnInLength]
  congr 2
  · omega
  · omega

/-- C47: exactly `chain_length` steps happen precisely when `int(L·ratio)` lies in `0..L`. -/
theorem sampling_steps_iff (d : Driver K X S Y Z) (save metrics : Bool) (e : ℤ) (L : ℕ) (ratio : ℝ)
    (cnt : S → ℕ) (hcnt : ∀ k x s, cnt (d.stp k x s).2.1 = cnt s + 1) (k : K) (x : X) (s : S) :
    cnt (samplingChain d save metrics e L ratio k x s).state = cnt s + L ↔
      0 ≤ pyInt (L * ratio) ∧ pyInt (L * ratio) ≤ L := by
  rw [sampling_count d save metrics e L ratio cnt hcnt]
  omega

/-- A driver that counts its steps, for the examples. -/
private def demoDriver : Driver Unit ℕ ℕ ℕ ℕ :=
  ⟨fun _ _ => (), fun _ x s => (x + 1, s + 1, 1), id, id, fun _ _ => 1⟩

/-- Chain length 5, ratio 1/2: five steps, the recorded states are those after steps 3, 4, 5. -/
example : (samplingChain demoDriver false false 1 5 (1 / 2) () 0 0).chain = [3, 4, 5] := by
  have h := (sampling_run demoDriver false false 1 5 (1 / 2) (by norm_num) (by norm_num) () 0 0).2.2.1
  have hf : ⌊((5 : ℕ) : ℝ) * (1 / 2)⌋₊ = 2 := by
    rw [Nat.floor_eq_iff (by norm_num)]; norm_num
  rw [h, hf]
  rfl

/-- A ratio above one runs longer than `chain_length`. -/
example : (samplingChain demoDriver false false 1 4 2 () 0 0).state = 8 := by
  have h := sampling_count demoDriver false false 1 4 2 id (fun _ _ _ => rfl) () 0 0
  have hf : pyInt (((4 : ℕ) : ℝ) * 2) = 8 := by
    rw [pyInt, if_pos (by norm_num), Int.floor_eq_iff]; norm_num
  rw [hf] at h
  exact h

/-! ### C66: the burn-in ratio only decides what is recorded -/

/-- C66.  Two runs that differ only in the burn-in ratio visit the same states, use the same keys and
produce the same metrics and saved samples; the shorter recording is a suffix of the longer one. -/
theorem ratio_only_records (d : Driver K X S Y Z) (save metrics : Bool) (e : ℤ) (L : ℕ)
    (r r' : ℝ) (h0 : 0 ≤ r) (hr : r ≤ r') (h1 : r' ≤ 1) (k : K) (x : X) (s : S) :
    let v := samplingChain d save metrics e L r k x s
    let v' := samplingChain d save metrics e L r' k x s
    v.x = v'.x ∧ v.state = v'.state ∧ v.rng = v'.rng ∧ v.samples = v'.samples ∧
      v.accRatios = v'.accRatios ∧ v.hops = v'.hops ∧ v'.chain <:+ v.chain := by
  rw [samplingChain_vars d save metrics e L r h0 (hr.trans h1),
    samplingChain_vars d save metrics e L r' (h0.trans hr) h1]
  refine ⟨rfl, rfl, rfl, rfl, rfl, rfl, ?_⟩
  have hle : ⌊(L : ℝ) * r⌋₊ ≤ ⌊(L : ℝ) * r'⌋₊ :=
    Nat.floor_le_floor (mul_le_mul_of_nonneg_left hr (Nat.cast_nonneg _))
  obtain ⟨_, _, hn, hL⟩ := pyInt_bounds (L := L) (h0.trans hr) h1
  rw [hn] at hL
  generalize ⌊(L : ℝ) * r⌋₊ = a at *
  generalize ⌊(L : ℝ) * r'⌋₊ = b at *
  obtain ⟨c, rfl⟩ := Nat.exists_eq_add_of_le hle
  simp only [varsAt]
  refine ⟨(List.range' (a + 1) c).map fun t => d.mapped (d.traj k x s t).1, ?_⟩
  rw [← List.map_append, show a + c + 1 = a + 1 + c from by omega, List.range'_append_1]
  congr 2
  omega

/-! ### C52: normalisation of the ESS -/

/-- Number of states the ESS is computed over (C47). -/
noncomputable def Spec.recorded (L : ℕ) (ratio : ℝ) : ℕ := L - ⌊(L : ℝ) * ratio⌋₊

/-- C52 (partial).  The reported ESS per step is the ESS divided by the number of states it was computed
over exactly when `L·ratio` is that number, which among ratios with `L·ratio` an integer means
`ratio = 1/2`.  Missing: every other ratio, see `ess_norm_wrong`. -/
theorem ess_norm_iff_partial (L : ℕ) (ratio ess : ℝ) (hess : ess ≠ 0) (hL : 0 < L) (h0 : 0 < ratio)
    (h1 : ratio < 1) :
    essOverSteps ratio ess L = ess / recorded L ratio ↔ (L : ℝ) * ratio = recorded L ratio := by
  have hx : (0 : ℝ) < L * ratio := by positivity
  have hlt : ⌊(L : ℝ) * ratio⌋₊ < L := by
    refine (Nat.floor_lt hx.le).2 ?_
    have : (0 : ℝ) < L := by positivity
    nlinarith
  have hr : (0 : ℝ) < recorded L ratio := by
    rw [recorded]; exact_mod_cast Nat.sub_pos_of_lt hlt
  rw [essOverSteps, div_eq_div_iff hx.ne' hr.ne', mul_right_inj' hess]
  exact eq_comm

/-- C52 (partial): correct for the default ratio `1/2` and an even chain length. -/
theorem ess_norm_half_partial (n : ℕ) (ess : ℝ) :
    essOverSteps (1 / 2) ess (2 * n) = ess / recorded (2 * n) (1 / 2) := by
  have h : ((2 * n : ℕ) : ℝ) * (1 / 2) = n := by push_cast; ring
  rw [essOverSteps, recorded, h, Nat.floor_natCast]
  congr 2
  omega

/-- C52 (partial): for a sampler spending `c` likelihood calls per step, the calls spent on the recorded
states are what the ESS is divided by, for ratio `1/2` and an even chain length. -/
theorem ess_calls_half_partial (n c : ℕ) (ess : ℝ) :
    essOverCalls (1 / 2) ess (c * (2 * n)) = ess / ((c * recorded (2 * n) (1 / 2) : ℕ) : ℝ) := by
  have h : ((2 * n : ℕ) : ℝ) * (1 / 2) = n := by push_cast; ring
  have h2 : 2 * n - n = n := by omega
  rw [essOverCalls, recorded, h, Nat.floor_natCast, h2]
  congr 1
  push_cast; ring

/-- C52 is false: with 4 steps and ratio 1/4 the ESS comes from 3 states but is divided by 1. -/
theorem ess_norm_wrong : ∃ (L : ℕ) (ratio : ℝ), 0 < ratio ∧ ratio < 1 ∧ recorded L ratio = 3 ∧
    ∀ ess : ℝ, essOverSteps ratio ess L = ess / 1 := by
  refine ⟨4, 1 / 4, by norm_num, by norm_num, ?_, fun ess => ?_⟩
  · have : ((4 : ℕ) : ℝ) * (1 / 4) = ((1 : ℕ) : ℝ) := by norm_num
    rw [recorded, this, Nat.floor_natCast]
  · rw [essOverSteps]; norm_num

/-- C52 (how wrong): whenever `L·ratio` is an integer `n`, the reported value is the correct one times
`(L - n) / n`. -/
theorem ess_norm_error (L n : ℕ) (ratio ess : ℝ) (hn : (L : ℝ) * ratio = n) (h0 : 0 < n) (h1 : n < L) :
    essOverSteps ratio ess L = ess / recorded L ratio * (((L : ℝ) - n) / n) := by
  rw [essOverSteps, recorded, hn, Nat.floor_natCast]
  have hn0 : (n : ℝ) ≠ 0 := by exact_mod_cast h0.ne'
  have hd : ((L - n : ℕ) : ℝ) = (L : ℝ) - n := by push_cast [h1.le]; ring
  have hd0 : (L : ℝ) - n ≠ 0 := by
    rw [← hd]; exact_mod_cast (Nat.sub_pos_of_lt h1).ne'
  rw [hd]
  field_simp

end Discs
