import Verif.Props.GWG
import Verif.Props.RandomWalk
import Verif.Props.Gibbs
import Verif.Props.BlockGibbs
import Verif.Props.HammingBall
import Verif.Model.PathAux
import Verif.Model.DMALA
import Verif.Model.DLMC

/-!
# Properties C04, C05: the sampler state along a run

A run is any sequence of steps: `x t`, draws and noise of step `t` are arbitrary, the sampler state
is threaded through.
-/

namespace Discs.Spec

/-- The states met by a run: start, then one update per step. -/
def states {σ : Type*} (next : ℕ → σ → σ) (s0 : σ) : ℕ → σ
  | 0 => s0
  | t + 1 => next t (states next s0 t)

/-- A counter that grows by `k` in every step. -/
theorem states_counter {σ : Type*} {next : ℕ → σ → σ} {s0 : σ} (cnt : σ → ℕ) (k : ℕ)
    (h : ∀ t s, cnt (next t s) = cnt s + k) (t : ℕ) : cnt (states next s0 t) = cnt s0 + t * k := by
  induction t with
  | zero => simp [states]
  | succ t ih => rw [states, h, ih]; ring

/-- A step counter. -/
theorem states_steps {σ : Type*} {next : ℕ → σ → σ} {s0 : σ} (cnt : σ → ℕ) (h0 : cnt s0 = 0)
    (h : ∀ t s, cnt (next t s) = cnt s + 1) (t : ℕ) : cnt (states next s0 t) = t := by
  rw [states_counter cnt 1 h, h0]; ring

/-- An evaluation counter. -/
theorem states_calls {σ : Type*} {next : ℕ → σ → σ} {s0 : σ} (cnt : σ → ℕ) (k : ℕ) (h0 : cnt s0 = 0)
    (h : ∀ t s, cnt (next t s) = cnt s + k) (t : ℕ) : cnt (states next s0 t) = t * k := by
  rw [states_counter cnt k h, h0]; ring

/-- A fact established by every step holds after every step. -/
theorem states_after {σ : Type*} {next : ℕ → σ → σ} {s0 : σ} (P : σ → Prop)
    (h : ∀ t s, P (next t s)) (t : ℕ) : P (states next s0 (t + 1)) := h t _

/-- A value no step changes. -/
theorem states_const {σ α : Type*} {next : ℕ → σ → σ} {s0 : σ} (v : σ → α)
    (h : ∀ t s, v (next t s) = v s) (t : ℕ) : v (states next s0 t) = v s0 := by
  induction t with
  | zero => rfl
  | succ t ih => rw [states, h, ih]

end Discs.Spec

namespace Discs

open Finset Spec

variable {B D : ℕ}

/-! ## C04: adaptive radius -/

theorem clip_radius_mem (hD : 0 < D) (r : ℝ) : 1 ≤ clip r 1 D ∧ clip r 1 D ≤ D := by
  have h1 : (1 : ℝ) ≤ D := by exact_mod_cast hD
  unfold clip
  constructor
  · exact le_min (le_max_right _ _) h1
  · exact min_le_right _ _

/-- The rounded radius is a legal number of flips, and `radius / dim` a legal probability. -/
theorem radius_legal (hD : 0 < D) {r : ℝ} (h : 1 ≤ r ∧ r ≤ D) :
    (1 ≤ numFlips D r ∧ numFlips D r ≤ D) ∧ 1 / (D : ℝ) ≤ r / D ∧ r / D ≤ 1 := by
  have hp : (0 : ℝ) < D := by exact_mod_cast hD
  refine ⟨⟨numFlips_pos hD r, by unfold numFlips; omega⟩, ?_, ?_⟩
  · exact div_le_div_of_nonneg_right h.1 hp.le
  · rw [div_le_one hp]; exact h.2

/-- C04 (adaptive random walk): from the initial state, the radius is in `[1, dim]` before and after
every step of every run. -/
theorem rwRadius_run (hD : 0 < D) (target tiny : ℝ) (f : (Fin D → ℤ) → ℝ) (C : ℕ)
    (x : ℕ → Fin B → Fin D → ℤ) (d : ℕ → Fin B → RWDraw C D) (u : ℕ → Fin B → ℝ) (t : ℕ) :
    let s := states (fun t s => (rwStep true target tiny f C (x t) (d t) (u t) s).2.1) rwInit t
    1 ≤ s.radius ∧ s.radius ≤ D := by
  cases t with
  | zero => exact ⟨le_rfl, show (1 : ℝ) ≤ D by exact_mod_cast hD⟩
  | succ t => exact clip_radius_mem hD _

/-- C04 (random walk): without adaptation the radius never changes. -/
theorem rwRadius_const (target tiny : ℝ) (f : (Fin D → ℤ) → ℝ) (C : ℕ)
    (x : ℕ → Fin B → Fin D → ℤ) (d : ℕ → Fin B → RWDraw C D) (u : ℕ → Fin B → ℝ) (s0 : RWState)
    (t : ℕ) :
    (states (fun t s => (rwStep false target tiny f C (x t) (d t) (u t) s).2.1) s0 t).radius =
      s0.radius := by
  refine states_const RWState.radius (fun _ _ => ?_) t
  rfl

/-- `gwg.py:87-90`: initial state of adaptive GWG. -/
def gwgAdaptiveInit : LBState := ⟨0, 0, 1⟩

/-- C04 (adaptive GWG). -/
theorem gwgRadius_run (hD : 0 < D) (target tiny : ℝ) (h : ℝ → ℝ) (f : (Fin D → ℤ) → ℝ)
    (g : (Fin D → ℤ) → Fin D → ℝ) (mask : ℕ → Option (Fin B → Fin D → ℝ))
    (x : ℕ → Fin B → Fin D → ℤ) (idx : ℕ → ∀ s : LBState, Fin B → Fin (numFlips D s.radius) → Fin D)
    (u : ℕ → Fin B → ℝ) (t : ℕ) :
    let s := states (fun t s =>
      (gwgAdaptiveStep hD target tiny h f g (mask t) (x t) s (idx t s) (u t)).2.1) gwgAdaptiveInit t
    1 ≤ s.radius ∧ s.radius ≤ D := by
  cases t with
  | zero => exact ⟨le_rfl, show (1 : ℝ) ≤ D by exact_mod_cast hD⟩
  | succ t => exact clip_radius_mem hD _

/-- C04 (adaptive path-auxiliary, binary): after every step, whatever `num_flips` it started from; and
before the first step as well if `1 ≤ num_flips ≤ dim`. -/
theorem pafsRadius_run (hD : 0 < D) (target tiny : ℝ) (calls : ℕ) (h : ℝ → ℝ) (f : (Fin D → ℤ) → ℝ)
    (lr : (Fin D → ℤ) → Fin D → ℝ) (mask : ℕ → Option (Fin B → Fin D → ℝ))
    (x : ℕ → Fin B → Fin D → ℤ) (σ : ℕ → Fin B → Equiv.Perm (Fin D)) (u : ℕ → Fin B → ℝ)
    (numFlips₀ : ℕ) (t : ℕ) (ht : 0 < t ∨ 1 ≤ numFlips₀ ∧ numFlips₀ ≤ D) :
    let s := states (fun t s =>
      (pafsAdaptiveStep target tiny calls h f lr (mask t) (x t) (σ t) (u t) s).2.1)
      (pafsInit numFlips₀) t
    1 ≤ s.radius ∧ s.radius ≤ D := by
  cases t with
  | zero =>
    have := ht.resolve_left (lt_irrefl 0)
    exact ⟨by simp only [states, pafsInit]; exact_mod_cast this.1,
      by simp only [states, pafsInit]; exact_mod_cast this.2⟩
  | succ t => exact clip_radius_mem hD _

/-- C04 (adaptive path-auxiliary, categorical). -/
theorem pafsCategRadius_run (hD : 0 < D) (target tiny : ℝ) (calls : ℕ) (h : ℝ → ℝ) (C : ℕ)
    (f : (Fin D → Fin C → ℝ) → ℝ) (lr : (Fin D → Fin C → ℝ) → Fin D → Fin C → ℝ)
    (mask : ℕ → Option (Fin B → Fin D → ℝ)) (x : ℕ → Fin B → Fin D → ℤ)
    (σ : ℕ → Fin B → Equiv.Perm (Fin D)) (v : ℕ → Fin B → Fin D → Fin C) (u : ℕ → Fin B → ℝ)
    (numFlips₀ : ℕ) (t : ℕ) (ht : 0 < t ∨ 1 ≤ numFlips₀ ∧ numFlips₀ ≤ D) :
    let s := states (fun t s =>
      (pafsCategAdaptiveStep target tiny calls h C f lr (mask t) (x t) (σ t) (v t) (u t) s).2.1)
      (pafsInit numFlips₀) t
    1 ≤ s.radius ∧ s.radius ≤ D := by
  cases t with
  | zero =>
    have := ht.resolve_left (lt_irrefl 0)
    exact ⟨by simp only [states, pafsInit]; exact_mod_cast this.1,
      by simp only [states, pafsInit]; exact_mod_cast this.2⟩
  | succ t => exact clip_radius_mem hD _

/-- C04 (path-auxiliary): without adaptation the radius never changes (binary and categorical). -/
theorem pafsRadius_const {k : ℕ} (tiny : ℝ) (calls : ℕ) (h : ℝ → ℝ) (f : (Fin D → ℤ) → ℝ)
    (lr : (Fin D → ℤ) → Fin D → ℝ) (mask : ℕ → Option (Fin B → Fin D → ℝ))
    (x : ℕ → Fin B → Fin D → ℤ) (idx : ℕ → Fin B → Fin k → Fin D) (u : ℕ → Fin B → ℝ) (s0 : LBState)
    (C : ℕ) (fc : (Fin D → Fin C → ℝ) → ℝ) (lrc : (Fin D → Fin C → ℝ) → Fin D → Fin C → ℝ)
    (val : ℕ → Fin B → Fin k → Fin C) (t : ℕ) :
    (states (fun t s => (pafsBinaryStep tiny calls h f lr (mask t) (x t) (idx t) (u t) s).2.1)
      s0 t).radius = s0.radius ∧
    (states (fun t s => (pafsCategStep tiny calls h C fc lrc (mask t) (x t) (idx t) (val t) (u t)
      s).2.1) s0 t).radius = s0.radius := by
  constructor
  all_goals
    refine states_const LBState.radius (fun _ _ => ?_) t
    rfl

/-- Instance for C04: two sites, radius 1, acceptance 1 and target 0.2: the radius becomes 1.8. -/
example : adaptRadius (B := 1) 0.2 2 (fun _ => 0) 1 = 1.8 := by
  unfold adaptRadius meanB clip clipMax
  norm_num

/-! ## C05: step counters and model-evaluation counts -/

/-- C05 (Gibbs). -/
theorem gibbs_counters (C : ℕ) (x : ℕ → Fin B → Fin D → ℤ) (v : ℕ → Fin B → Fin C) (t : ℕ) :
    let s := states (fun t s => (gibbsStep C (x t) (v t) s).2.1) gibbsInit t
    s.steps = t ∧ s.numLlCalls = t * C := by
  refine ⟨?_, ?_⟩
  · exact states_steps GibbsState.steps rfl (fun _ _ => rfl) t
  · exact states_calls GibbsState.numLlCalls C rfl (fun _ _ => rfl) t

/-- C05 (block Gibbs): one evaluation per block assignment. -/
theorem blockGibbs_counters (C b : ℕ) (x : ℕ → Fin B → Fin D → ℤ)
    (sel : ℕ → Fin B → Fin (categoriesIter C b).length) (t : ℕ) :
    let s := states (fun t s => (blockGibbsStep C b (x t) (sel t) s).2.1) blockInit t
    s.steps = t ∧ s.numLlCalls = t * C ^ b := by
  refine ⟨?_, ?_⟩
  · exact states_steps BlockState.steps rfl (fun _ _ => rfl) t
  · exact states_calls BlockState.numLlCalls (C ^ b) rfl (fun _ _ => rfl) t

/-- C05 (Hamming ball). -/
theorem hb_counters (C b : ℕ) (x : ℕ → Fin B → Fin D → ℤ) (rad : ℕ → Fin 2)
    (d : ℕ → Fin B → Fin b × Fin (C - 1) × Fin (b * (C - 1) + 1)) (t : ℕ) :
    let s := states (fun t s => (hbStep C b (x t) (rad t) (d t) s).2.1) blockInit t
    s.steps = t ∧ s.numLlCalls = t * ((C - 1) * b + 1) := by
  refine ⟨?_, ?_⟩
  · exact states_steps BlockState.steps rfl (fun _ _ => rfl) t
  · exact states_calls BlockState.numLlCalls ((C - 1) * b + 1) rfl (fun _ _ => rfl) t

/-- C05 (GWG, binary). -/
theorem gwg_counters {k : ℕ} (tiny : ℝ) (h : ℝ → ℝ) (f : (Fin D → ℤ) → ℝ)
    (g : (Fin D → ℤ) → Fin D → ℝ) (mask : ℕ → Option (Fin B → Fin D → ℝ))
    (x : ℕ → Fin B → Fin D → ℤ) (idx : ℕ → Fin B → Fin k → Fin D) (u : ℕ → Fin B → ℝ) (r : ℝ) (t : ℕ) :
    let s := states (fun t s => (gwgBinaryStep tiny h f g (mask t) (x t) (idx t) (u t) s).2.1)
      ⟨0, 0, r⟩ t
    s.steps = t ∧ s.numLlCalls = t * 4 := by
  refine ⟨?_, ?_⟩
  · exact states_steps LBState.steps rfl (fun _ _ => rfl) t
  · exact states_calls LBState.numLlCalls 4 rfl (fun _ _ => rfl) t

/-- C05 (GWG, adaptive). -/
theorem gwgAdaptive_counters (hD : 0 < D) (target tiny : ℝ) (h : ℝ → ℝ) (f : (Fin D → ℤ) → ℝ)
    (g : (Fin D → ℤ) → Fin D → ℝ) (mask : ℕ → Option (Fin B → Fin D → ℝ))
    (x : ℕ → Fin B → Fin D → ℤ) (idx : ℕ → ∀ s : LBState, Fin B → Fin (numFlips D s.radius) → Fin D)
    (u : ℕ → Fin B → ℝ) (t : ℕ) :
    let s := states (fun t s =>
      (gwgAdaptiveStep hD target tiny h f g (mask t) (x t) s (idx t s) (u t)).2.1) gwgAdaptiveInit t
    s.steps = t ∧ s.numLlCalls = t * 4 := by
  refine ⟨?_, ?_⟩
  · exact states_steps LBState.steps rfl (fun _ _ => rfl) t
  · exact states_calls LBState.numLlCalls 4 rfl (fun _ _ => rfl) t

/-- C05 (GWG, categorical). -/
theorem cgwg_counters (tiny : ℝ) (h : ℝ → ℝ) (C : ℕ)
    (f : (Fin D → Fin C → ℝ) → ℝ) (g : (Fin D → Fin C → ℝ) → Fin D → Fin C → ℝ)
    (x : ℕ → Fin B → Fin D → ℤ) (idx : ℕ → Fin B → Fin (D * C)) (u : ℕ → Fin B → ℝ) (r : ℝ) (t : ℕ) :
    let s := states (fun t s => (cgwgStep tiny h C f g (x t) (idx t) (u t) s).2.1) ⟨0, 0, r⟩ t
    s.steps = t ∧ s.numLlCalls = t * 4 := by
  refine ⟨?_, ?_⟩
  · exact states_steps LBState.steps rfl (fun _ _ => rfl) t
  · exact states_calls LBState.numLlCalls 4 rfl (fun _ _ => rfl) t

theorem pafsSelectState_counters (adaptive : Bool) (target : ℝ) (dim calls : ℕ) (logAcc : Fin B → ℝ)
    (s : LBState) : (pafsSelectState adaptive target dim calls logAcc s).steps = s.steps + 1 ∧
      (pafsSelectState adaptive target dim calls logAcc s).numLlCalls = s.numLlCalls + calls := by
  unfold pafsSelectState
  cases adaptive <;> exact ⟨rfl, rfl⟩

/-- C05 (path-auxiliary, binary, both variants): `calls` is what the two local-score computations
report. -/
theorem pafs_counters {k : ℕ} (target tiny : ℝ) (calls : ℕ) (h : ℝ → ℝ) (f : (Fin D → ℤ) → ℝ)
    (lr : (Fin D → ℤ) → Fin D → ℝ) (mask : ℕ → Option (Fin B → Fin D → ℝ))
    (x : ℕ → Fin B → Fin D → ℤ) (idx : ℕ → Fin B → Fin k → Fin D)
    (σ : ℕ → Fin B → Equiv.Perm (Fin D)) (u : ℕ → Fin B → ℝ) (n₀ t : ℕ) :
    (let s := states (fun t s =>
        (pafsBinaryStep tiny calls h f lr (mask t) (x t) (idx t) (u t) s).2.1) (pafsInit n₀) t;
      s.steps = t ∧ s.numLlCalls = t * calls) ∧
    (let s := states (fun t s =>
        (pafsAdaptiveStep target tiny calls h f lr (mask t) (x t) (σ t) (u t) s).2.1) (pafsInit n₀) t;
      s.steps = t ∧ s.numLlCalls = t * calls) := by
  refine ⟨⟨?_, ?_⟩, ⟨?_, ?_⟩⟩
  · refine states_steps LBState.steps rfl (fun _ _ => ?_) t
    exact (pafsSelectState_counters ..).1
  · refine states_calls LBState.numLlCalls calls rfl (fun _ _ => ?_) t
    exact (pafsSelectState_counters ..).2
  · refine states_steps LBState.steps rfl (fun _ _ => ?_) t
    exact (pafsSelectState_counters ..).1
  · refine states_calls LBState.numLlCalls calls rfl (fun _ _ => ?_) t
    exact (pafsSelectState_counters ..).2

/-- C05 (path-auxiliary, categorical, both variants). -/
theorem pafsCateg_counters {k : ℕ} (target tiny : ℝ) (calls : ℕ) (h : ℝ → ℝ) (C : ℕ)
    (f : (Fin D → Fin C → ℝ) → ℝ) (lr : (Fin D → Fin C → ℝ) → Fin D → Fin C → ℝ)
    (mask : ℕ → Option (Fin B → Fin D → ℝ)) (x : ℕ → Fin B → Fin D → ℤ)
    (idx : ℕ → Fin B → Fin k → Fin D) (val : ℕ → Fin B → Fin k → Fin C)
    (σ : ℕ → Fin B → Equiv.Perm (Fin D)) (v : ℕ → Fin B → Fin D → Fin C) (u : ℕ → Fin B → ℝ)
    (n₀ t : ℕ) :
    (let s := states (fun t s => (pafsCategStep tiny calls h C f lr (mask t) (x t) (idx t) (val t) (u t)
        s).2.1) (pafsInit n₀) t;
      s.steps = t ∧ s.numLlCalls = t * calls) ∧
    (let s := states (fun t s => (pafsCategAdaptiveStep target tiny calls h C f lr (mask t) (x t) (σ t)
        (v t) (u t) s).2.1) (pafsInit n₀) t;
      s.steps = t ∧ s.numLlCalls = t * calls) := by
  refine ⟨⟨?_, ?_⟩, ⟨?_, ?_⟩⟩
  · refine states_steps LBState.steps rfl (fun _ _ => ?_) t
    exact (pafsSelectState_counters ..).1
  · refine states_calls LBState.numLlCalls calls rfl (fun _ _ => ?_) t
    exact (pafsSelectState_counters ..).2
  · refine states_steps LBState.steps rfl (fun _ _ => ?_) t
    exact (pafsSelectState_counters ..).1
  · refine states_calls LBState.numLlCalls calls rfl (fun _ _ => ?_) t
    exact (pafsSelectState_counters ..).2

theorem dSelectState_counters (c : DCfg) (s : DState) (acc : Option ℝ) (loc : DStats) :
    (dSelectState c s acc loc).steps = s.steps + 1 ∧
      (dSelectState c s acc loc).numLlCalls = s.numLlCalls + 4 := by
  unfold dSelectState dUpdate
  dsimp only
  split_ifs <;> exact ⟨rfl, rfl⟩

theorem dmalaBinary_counters_step (c : DCfg) (tiny eps : ℝ) (h : ℝ → ℝ) (f : (Fin D → ℤ) → ℝ)
    (g : (Fin D → ℤ) → Fin D → ℝ) (x : Fin B → Fin D → ℤ) (flip : Fin B → Fin D → Bool)
    (u : Fin B → ℝ) (s : DState) :
    (dmalaBinaryStep c tiny eps h f g x flip u s).2.1.steps = s.steps + 1 ∧
      (dmalaBinaryStep c tiny eps h f g x flip u s).2.1.numLlCalls = s.numLlCalls + 4 := by
  unfold dmalaBinaryStep
  dsimp only
  split
  · exact dSelectState_counters ..
  · exact dSelectState_counters ..

theorem dmalaCateg_counters_step (c : DCfg) (tiny : ℝ) (h : ℝ → ℝ) (C : ℕ)
    (f : (Fin D → Fin C → ℝ) → ℝ) (g : (Fin D → Fin C → ℝ) → Fin D → Fin C → ℝ)
    (x : Fin B → Fin D → ℤ) (v : Fin B → Fin D → Fin C) (u : Fin B → ℝ) (s : DState) :
    (dmalaCategStep c tiny h C f g x v u s).2.1.steps = s.steps + 1 ∧
      (dmalaCategStep c tiny h C f g x v u s).2.1.numLlCalls = s.numLlCalls + 4 := by
  unfold dmalaCategStep
  dsimp only
  split
  · exact dSelectState_counters ..
  · exact dSelectState_counters ..

/-- C05 (DMALA, binary and categorical, all configurations). -/
theorem dmala_counters (c : DCfg) (tiny eps : ℝ) (h : ℝ → ℝ) (f : (Fin D → ℤ) → ℝ)
    (g : (Fin D → ℤ) → Fin D → ℝ) (C : ℕ) (fc : (Fin D → Fin C → ℝ) → ℝ)
    (gc : (Fin D → Fin C → ℝ) → Fin D → Fin C → ℝ) (x : ℕ → Fin B → Fin D → ℤ)
    (flip : ℕ → Fin B → Fin D → Bool) (v : ℕ → Fin B → Fin D → Fin C) (u : ℕ → Fin B → ℝ) (t : ℕ) :
    (let s := states (fun t s => (dmalaBinaryStep c tiny eps h f g (x t) (flip t) (u t) s).2.1) dInit t;
      s.steps = t ∧ s.numLlCalls = t * 4) ∧
    (let s := states (fun t s => (dmalaCategStep c tiny h C fc gc (x t) (v t) (u t) s).2.1) dInit t;
      s.steps = t ∧ s.numLlCalls = t * 4) := by
  refine ⟨⟨?_, ?_⟩, ⟨?_, ?_⟩⟩
  · exact states_steps DState.steps rfl (fun _ _ => (dmalaBinary_counters_step ..).1) t
  · exact states_calls DState.numLlCalls 4 rfl (fun _ _ => (dmalaBinary_counters_step ..).2) t
  · exact states_steps DState.steps rfl (fun _ _ => (dmalaCateg_counters_step ..).1) t
  · exact states_calls DState.numLlCalls 4 rfl (fun _ _ => (dmalaCateg_counters_step ..).2) t

theorem dlmcPreState_counters (c : DCfg) (s : DState) (loc : DStats) :
    (dlmcPreState c s loc).steps = s.steps ∧ (dlmcPreState c s loc).numLlCalls = s.numLlCalls := by
  unfold dlmcPreState
  split_ifs <;> exact ⟨rfl, rfl⟩

theorem dlmcBinary_counters_step (c : DCfg) (tiny eps : ℝ) (h : ℝ → ℝ) (f : (Fin D → ℤ) → ℝ)
    (g : (Fin D → ℤ) → Fin D → ℝ) (x : Fin B → Fin D → ℤ) (flip : Fin B → Fin D → Bool)
    (u : Fin B → ℝ) (s : DState) {r : (Fin B → Fin D → ℤ) × DState × Option ℝ}
    (hr : dlmcBinaryStep c tiny eps h f g x flip u s = .ok r) :
    r.2.1.steps = s.steps + 1 ∧ r.2.1.numLlCalls = s.numLlCalls + 4 := by
  unfold dlmcBinaryStep at hr
  dsimp only at hr
  split_ifs at hr
  split at hr
  all_goals
    injection hr with hr
    subst hr
    refine ⟨(dSelectState_counters ..).1.trans ?_, (dSelectState_counters ..).2.trans ?_⟩
    · rw [(dlmcPreState_counters ..).1]
    · rw [(dlmcPreState_counters ..).2]

theorem dlmcCateg_counters_step (c : DCfg) (tiny : ℝ) (h : ℝ → ℝ) (C : ℕ)
    (f : (Fin D → Fin C → ℝ) → ℝ) (g : (Fin D → Fin C → ℝ) → Fin D → Fin C → ℝ)
    (x : Fin B → Fin D → ℤ) (v : Fin B → Fin D → Fin C) (u : Fin B → ℝ) (s : DState)
    {r : (Fin B → Fin D → ℤ) × DState × Option ℝ} (hr : dlmcCategStep c tiny h C f g x v u s = .ok r) :
    r.2.1.steps = s.steps + 1 ∧ r.2.1.numLlCalls = s.numLlCalls + 4 := by
  unfold dlmcCategStep at hr
  dsimp only at hr
  rw [ite_eq_iff] at hr
  rcases hr with ⟨-, hr⟩ | ⟨-, hr⟩
  · cases hr
  split at hr
  all_goals
    injection hr with hr
    subst hr
    refine ⟨(dSelectState_counters ..).1.trans ?_, (dSelectState_counters ..).2.trans ?_⟩
    · rw [(dlmcPreState_counters ..).1]
    · rw [(dlmcPreState_counters ..).2]

/-- C05 (DLMC, binary and categorical): along any run without exceptions. -/
theorem dlmc_counters (c : DCfg) (tiny eps : ℝ) (h : ℝ → ℝ) (f : (Fin D → ℤ) → ℝ)
    (g : (Fin D → ℤ) → Fin D → ℝ) (C : ℕ) (fc : (Fin D → Fin C → ℝ) → ℝ)
    (gc : (Fin D → Fin C → ℝ) → Fin D → Fin C → ℝ) (x : ℕ → Fin B → Fin D → ℤ)
    (flip : ℕ → Fin B → Fin D → Bool) (v : ℕ → Fin B → Fin D → Fin C) (u : ℕ → Fin B → ℝ)
    (s : ℕ → DState) (h0 : s 0 = dInit)
    (hrun : (∀ t, ∃ y a, dlmcBinaryStep c tiny eps h f g (x t) (flip t) (u t) (s t) =
        .ok (y, s (t + 1), a)) ∨
      ∀ t, ∃ y a, dlmcCategStep c tiny h C fc gc (x t) (v t) (u t) (s t) = .ok (y, s (t + 1), a))
    (t : ℕ) : (s t).steps = t ∧ (s t).numLlCalls = t * 4 := by
  have hstep : ∀ t, (s (t + 1)).steps = (s t).steps + 1 ∧
      (s (t + 1)).numLlCalls = (s t).numLlCalls + 4 := by
    intro t
    rcases hrun with hr | hr
    · obtain ⟨y, a, e⟩ := hr t; exact dlmcBinary_counters_step _ _ _ _ _ _ _ _ _ _ e
    · obtain ⟨y, a, e⟩ := hr t; exact dlmcCateg_counters_step _ _ _ _ _ _ _ _ _ _ e
  induction t with
  | zero => rw [h0]; exact ⟨rfl, rfl⟩
  | succ t ih => rw [(hstep t).1, (hstep t).2, ih.1, ih.2]; exact ⟨rfl, by ring⟩

/-- C05 fails for the random walk: `select_sample` never calls `update_sampler_state`, so the step
counter stays at its initial value (the model evaluations are counted). -/
theorem rw_counters_partial (adaptive : Bool) (target tiny : ℝ) (f : (Fin D → ℤ) → ℝ) (C : ℕ)
    (x : ℕ → Fin B → Fin D → ℤ) (d : ℕ → Fin B → RWDraw C D) (u : ℕ → Fin B → ℝ) (t : ℕ) :
    let s := states (fun t s => (rwStep adaptive target tiny f C (x t) (d t) (u t) s).2.1) rwInit t
    s.steps = 0 ∧ s.numLlCalls = t * 2 := by
  refine ⟨?_, ?_⟩
  · exact states_const RWState.steps (fun _ _ => by cases adaptive <;> rfl) t
  · exact states_calls RWState.numLlCalls 2 rfl (fun _ _ => by cases adaptive <;> rfl) t

/-- The refutation of C05 for the random walk: after one step the counter is not one. -/
theorem rw_steps_stuck (adaptive : Bool) (target tiny : ℝ) (f : (Fin D → ℤ) → ℝ) (C : ℕ)
    (x : Fin B → Fin D → ℤ) (d : Fin B → RWDraw C D) (u : Fin B → ℝ) :
    (rwStep adaptive target tiny f C x d u rwInit).2.1.steps ≠ 1 := by
  cases adaptive <;> exact zero_ne_one

/-- Instance for C05: three Gibbs steps on one chain of two binary sites. -/
example : (states (fun _ s => (gibbsStep (B := 1) 2 (fun _ => ![0, 1]) (fun _ => 1) s).2.1)
    gibbsInit 3) = ⟨3, 6, 1⟩ := by decide

end Discs
