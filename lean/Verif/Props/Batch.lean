import Mathlib.Analysis.Complex.ExponentialBounds
import Verif.Spec.Batch
import Verif.Props.GWG
import Verif.Props.DMALA
import Verif.Props.DLMC
import Verif.Props.PathAux
import Verif.Props.RandomWalk
import Verif.Props.HammingBall

/-!
# Property C18: parallel chains do not influence one another

True for Gibbs, block Gibbs, Hamming ball, random walk, binary GWG, the path-auxiliary samplers, and for
DMALA and DLMC whenever the step size is read from the configuration or the sampler state.  False for
categorical GWG and for DMALA / DLMC when the step size is computed from the batch.
-/

namespace Discs

open Finset Spec

variable {D : ℕ}

/-- Per-chain masks as the optional `x_mask` argument. -/
def optMask {B : ℕ} (masked : Bool) (m : Fin B → Fin D → ℝ) : Option (Fin B → Fin D → ℝ) :=
  if masked then some m else none

/-- C18 (random walk, both variants). -/
theorem rw_chainLocal (adaptive : Bool) (target tiny : ℝ) (f : (Fin D → ℤ) → ℝ) (C : ℕ) (s : RWState) :
    ChainLocal fun B (x : Fin B → Fin D → ℤ) (w : Fin B → RWDraw C D × ℝ) =>
      (rwStep adaptive target tiny f C x (fun b => (w b).1) (fun b => (w b).2) s).1 :=
  .of_row (fun x w =>
    (rwStep adaptive target tiny f C (fun _ : Fin 1 => x) (fun _ => w.1) (fun _ => w.2) s).1 0)
    fun _ _ _ _ => by cases adaptive <;> rfl

/-- C18 (Gibbs). -/
theorem gibbs_chainLocal (C : ℕ) (s : GibbsState) :
    ChainLocal fun B (x : Fin B → Fin D → ℤ) (v : Fin B → Fin C) => (gibbsStep C x v s).1 :=
  .of_row (fun x v => (gibbsStep C (fun _ : Fin 1 => x) (fun _ => v) s).1 0) fun _ _ _ _ => rfl

/-- C18 (block Gibbs). -/
theorem blockGibbs_chainLocal (C b : ℕ) (s : BlockState) :
    ChainLocal fun B (x : Fin B → Fin D → ℤ) (v : Fin B → Fin (categoriesIter C b).length) =>
      (blockGibbsStep C b x v s).1 :=
  .of_row (fun x v => (blockGibbsStep C b (fun _ : Fin 1 => x) (fun _ => v) s).1 0)
    fun _ _ _ _ => rfl

/-- C18 (Hamming ball), given the radius draw, which is one draw shared by the batch. -/
theorem hb_chainLocal (C b : ℕ) (rad : Fin 2) (s : BlockState) :
    ChainLocal fun B (x : Fin B → Fin D → ℤ)
        (d : Fin B → Fin b × Fin (C - 1) × Fin (b * (C - 1) + 1)) => (hbStep C b x rad d s).1 :=
  .of_row (fun x d => (hbStep C b (fun _ : Fin 1 => x) rad (fun _ => d) s).1 0) fun _ _ _ _ => rfl

/-- C18 (binary GWG). -/
theorem gwgBinary_chainLocal (k : ℕ) (tiny : ℝ) (h : ℝ → ℝ) (f : (Fin D → ℤ) → ℝ)
    (g : (Fin D → ℤ) → Fin D → ℝ) (masked : Bool) (s : LBState) :
    ChainLocal fun B (x : Fin B → Fin D → ℤ) (w : Fin B → (Fin D → ℝ) × (Fin k → Fin D) × ℝ) =>
      (gwgBinaryStep tiny h f g (optMask masked fun b => (w b).1) x (fun b => (w b).2.1)
        (fun b => (w b).2.2) s).1 :=
  .of_row (fun x w => (gwgBinaryStep tiny h f g (optMask masked fun _ : Fin 1 => w.1) (fun _ => x)
      (fun _ => w.2.1) (fun _ => w.2.2) s).1 0) fun _ _ _ _ => by cases masked <;> rfl

/-- C18 (adaptive GWG). -/
theorem gwgAdaptive_chainLocal (hD : 0 < D) (target tiny : ℝ) (h : ℝ → ℝ) (f : (Fin D → ℤ) → ℝ)
    (g : (Fin D → ℤ) → Fin D → ℝ) (masked : Bool) (s : LBState) :
    ChainLocal fun B (x : Fin B → Fin D → ℤ)
        (w : Fin B → (Fin D → ℝ) × (Fin (numFlips D s.radius) → Fin D) × ℝ) =>
      (gwgAdaptiveStep hD target tiny h f g (optMask masked fun b => (w b).1) x s (fun b => (w b).2.1)
        (fun b => (w b).2.2)).1 :=
  .of_row (fun x w => (gwgAdaptiveStep hD target tiny h f g (optMask masked fun _ : Fin 1 => w.1)
      (fun _ => x) s (fun _ => w.2.1) (fun _ => w.2.2)).1 0) fun _ _ _ _ => by cases masked <;> rfl

/-- C18 (path-auxiliary, binary, fixed number of flips). -/
theorem pafsBinary_chainLocal (k : ℕ) (tiny : ℝ) (calls : ℕ) (h : ℝ → ℝ) (f : (Fin D → ℤ) → ℝ)
    (lr : (Fin D → ℤ) → Fin D → ℝ) (masked : Bool) (s : LBState) :
    ChainLocal fun B (x : Fin B → Fin D → ℤ) (w : Fin B → (Fin D → ℝ) × (Fin k → Fin D) × ℝ) =>
      (pafsBinaryStep tiny calls h f lr (optMask masked fun b => (w b).1) x (fun b => (w b).2.1)
        (fun b => (w b).2.2) s).1 :=
  .of_row (fun x w => (pafsBinaryStep tiny calls h f lr (optMask masked fun _ : Fin 1 => w.1)
      (fun _ => x) (fun _ => w.2.1) (fun _ => w.2.2) s).1 0) fun _ _ _ _ => by cases masked <;> rfl

/-- C18 (path-auxiliary, binary, adaptive). -/
theorem pafsAdaptive_chainLocal (target tiny : ℝ) (calls : ℕ) (h : ℝ → ℝ) (f : (Fin D → ℤ) → ℝ)
    (lr : (Fin D → ℤ) → Fin D → ℝ) (masked : Bool) (s : LBState) :
    ChainLocal fun B (x : Fin B → Fin D → ℤ) (w : Fin B → (Fin D → ℝ) × Equiv.Perm (Fin D) × ℝ) =>
      (pafsAdaptiveStep target tiny calls h f lr (optMask masked fun b => (w b).1) x
        (fun b => (w b).2.1) (fun b => (w b).2.2) s).1 :=
  .of_row (fun x w => (pafsAdaptiveStep target tiny calls h f lr (optMask masked fun _ : Fin 1 => w.1)
      (fun _ => x) (fun _ => w.2.1) (fun _ => w.2.2) s).1 0) fun _ _ _ _ => by cases masked <;> rfl

/-- C18 (path-auxiliary, categorical, fixed number of flips). -/
theorem pafsCateg_chainLocal (k : ℕ) (tiny : ℝ) (calls : ℕ) (h : ℝ → ℝ) (C : ℕ)
    (f : (Fin D → Fin C → ℝ) → ℝ) (lr : (Fin D → Fin C → ℝ) → Fin D → Fin C → ℝ) (masked : Bool)
    (s : LBState) :
    ChainLocal fun B (x : Fin B → Fin D → ℤ)
        (w : Fin B → (Fin D → ℝ) × (Fin k → Fin D) × (Fin k → Fin C) × ℝ) =>
      (pafsCategStep tiny calls h C f lr (optMask masked fun b => (w b).1) x (fun b => (w b).2.1)
        (fun b => (w b).2.2.1) (fun b => (w b).2.2.2) s).1 :=
  .of_row (fun x w => (pafsCategStep tiny calls h C f lr (optMask masked fun _ : Fin 1 => w.1)
      (fun _ => x) (fun _ => w.2.1) (fun _ => w.2.2.1) (fun _ => w.2.2.2) s).1 0)
    fun _ _ _ _ => by cases masked <;> rfl

/-- C18 (path-auxiliary, categorical, adaptive). -/
theorem pafsCategAdaptive_chainLocal (target tiny : ℝ) (calls : ℕ) (h : ℝ → ℝ) (C : ℕ)
    (f : (Fin D → Fin C → ℝ) → ℝ) (lr : (Fin D → Fin C → ℝ) → Fin D → Fin C → ℝ) (masked : Bool)
    (s : LBState) :
    ChainLocal fun B (x : Fin B → Fin D → ℤ)
        (w : Fin B → (Fin D → ℝ) × Equiv.Perm (Fin D) × (Fin D → Fin C) × ℝ) =>
      (pafsCategAdaptiveStep target tiny calls h C f lr (optMask masked fun b => (w b).1) x
        (fun b => (w b).2.1) (fun b => (w b).2.2.1) (fun b => (w b).2.2.2) s).1 :=
  .of_row (fun x w => (pafsCategAdaptiveStep target tiny calls h C f lr
      (optMask masked fun _ : Fin 1 => w.1)
      (fun _ => x) (fun _ => w.2.1) (fun _ => w.2.2.1) (fun _ => w.2.2.2) s).1 0)
    fun _ _ _ _ => by cases masked <;> rfl

/-- C18 (binary DMALA), part that holds: the step size comes from the configuration or the state. -/
theorem dmalaBinary_chainLocal_partial (c : DCfg) (tiny eps : ℝ) (h : ℝ → ℝ) (f : (Fin D → ℤ) → ℝ)
    (g : (Fin D → ℤ) → Fin D → ℝ) (s : DState)
    (hfix : c.adaptive = false ∨ c.coOpt = false ∧ s.steps ≠ 0) :
    ChainLocal fun B (x : Fin B → Fin D → ℤ) (w : Fin B → (Fin D → Bool) × ℝ) =>
      (dmalaBinaryStep c tiny eps h f g x (fun b => (w b).1) (fun b => (w b).2) s).1 := by
  refine .of_row (fun x w => (dmalaBinaryStep c tiny eps h f g (fun _ : Fin 1 => x) (fun _ => w.1)
      (fun _ => w.2) s).1 0) fun B x w b => ?_
  obtain ⟨t, ht⟩ : ∃ t, ∀ loc, dmalaLogTau c s loc = t := by
    rcases hfix with h0 | ⟨h0, h1⟩
    · exact ⟨_, fun loc => by unfold dmalaLogTau; rw [h0]; rfl⟩
    · cases ha : c.adaptive
      · exact ⟨_, fun loc => by unfold dmalaLogTau; rw [ha]; rfl⟩
      · exact ⟨s.logTau, fun loc => by unfold dmalaLogTau; simp [ha, h0, h1]⟩
  have hr : ∀ tau loc, dmalaLogTauRev c tau loc = tau := by
    intro tau loc
    unfold dmalaLogTauRev
    rcases hfix with h0 | ⟨h0, -⟩ <;> simp [h0]
  simp only [dmalaBinaryStep, ht, hr]
  cases t <;> rfl

/-- C18 (categorical DMALA), part that holds. -/
theorem dmalaCateg_chainLocal_partial (c : DCfg) (tiny : ℝ) (h : ℝ → ℝ) (C : ℕ)
    (f : (Fin D → Fin C → ℝ) → ℝ) (g : (Fin D → Fin C → ℝ) → Fin D → Fin C → ℝ) (s : DState)
    (hfix : c.adaptive = false ∨ c.coOpt = false ∧ s.steps ≠ 0) :
    ChainLocal fun B (x : Fin B → Fin D → ℤ) (w : Fin B → (Fin D → Fin C) × ℝ) =>
      (dmalaCategStep c tiny h C f g x (fun b => (w b).1) (fun b => (w b).2) s).1 := by
  refine .of_row (fun x w => (dmalaCategStep c tiny h C f g (fun _ : Fin 1 => x) (fun _ => w.1)
      (fun _ => w.2) s).1 0) fun B x w b => ?_
  obtain ⟨t, ht⟩ : ∃ t, ∀ loc, dmalaLogTau c s loc = t := by
    rcases hfix with h0 | ⟨h0, h1⟩
    · exact ⟨_, fun loc => by unfold dmalaLogTau; rw [h0]; rfl⟩
    · cases ha : c.adaptive
      · exact ⟨_, fun loc => by unfold dmalaLogTau; rw [ha]; rfl⟩
      · exact ⟨s.logTau, fun loc => by unfold dmalaLogTau; simp [ha, h0, h1]⟩
  have hr : ∀ tau loc, dmalaLogTauRev c tau loc = tau := by
    intro tau loc
    unfold dmalaLogTauRev
    rcases hfix with h0 | ⟨h0, -⟩ <;> simp [h0]
  simp only [dmalaCategStep, ht, hr]
  cases t <;> rfl

theorem dlmc_tau_fixed (c : DCfg) (s : DState) (hs : s.steps ≠ 0)
    (hfix : c.adaptive = false ∨ c.coOpt = false) :
    (∀ loc, dlmcLogTau c s loc = s.logTau) ∧ ∀ tau loc, dmalaLogTauRev c tau loc = tau := by
  constructor
  · intro loc
    unfold dlmcLogTau
    rcases hfix with h0 | h0 <;> simp [h0, hs]
  · intro tau loc
    unfold dmalaLogTauRev
    rcases hfix with h0 | h0 <;> simp [h0]

/-- C18 (binary DLMC), part that holds: after the first step, without `co_opt_prob`. -/
theorem dlmcBinary_chainLocal_partial (c : DCfg) (tiny eps : ℝ) (h : ℝ → ℝ) (f : (Fin D → ℤ) → ℝ)
    (g : (Fin D → ℤ) → Fin D → ℝ) (s : DState) (hs : s.steps ≠ 0)
    (hfix : c.adaptive = false ∨ c.coOpt = false) :
    ChainLocal fun B (x : Fin B → Fin D → ℤ) (w : Fin B → (Fin D → Bool) × ℝ) b =>
      (dlmcBinaryStep c tiny eps h f g x (fun b => (w b).1) (fun b => (w b).2) s).toOption.map
        fun r => r.1 b := by
  refine .of_row (fun x w => (dlmcBinaryStep c tiny eps h f g (fun _ : Fin 1 => x) (fun _ => w.1)
      (fun _ => w.2) s).toOption.map fun r => r.1 0) fun B x w b => ?_
  obtain ⟨ht, hr⟩ := dlmc_tau_fixed c s hs hfix
  simp only [dlmcBinaryStep, ht, hr]
  split_ifs
  · rfl
  · cases s.logTau <;> rfl

/-- C18 (categorical DLMC), part that holds. -/
theorem dlmcCateg_chainLocal_partial (c : DCfg) (tiny : ℝ) (h : ℝ → ℝ) (C : ℕ)
    (f : (Fin D → Fin C → ℝ) → ℝ) (g : (Fin D → Fin C → ℝ) → Fin D → Fin C → ℝ) (s : DState)
    (hs : s.steps ≠ 0) (hfix : c.adaptive = false ∨ c.coOpt = false) :
    ChainLocal fun B (x : Fin B → Fin D → ℤ) (w : Fin B → (Fin D → Fin C) × ℝ) b =>
      (dlmcCategStep c tiny h C f g x (fun b => (w b).1) (fun b => (w b).2) s).toOption.map
        fun r => r.1 b := by
  refine .of_row (fun x w => (dlmcCategStep c tiny h C f g (fun _ : Fin 1 => x) (fun _ => w.1)
      (fun _ => w.2) s).toOption.map fun r => r.1 0) fun B x w b => ?_
  obtain ⟨ht, hr⟩ := dlmc_tau_fixed c s hs hfix
  simp only [dlmcCategStep, ht, hr]
  split_ifs <;> first | rfl | (cases s.logTau <;> rfl)

/-! ## Categorical GWG: refutation -/

/-- Log-probability of index `n` of the categorical GWG proposal for one site of three categories and
a flat model, up to the common normaliser. -/
theorem cgwgDist_flat (v : ℤ) (hv : 0 ≤ v ∧ v < 3) (n : Fin (1 * 3)) :
    cgwgDist (D := 1) (C := 3) id (oneHotRow 3 fun _ => v) (fun _ _ => 0) n =
      (if ((n : ℕ) : ℤ) = v then -1e9 else 0) - Real.log (2 + Real.exp (-1e9)) := by
  have key : ∀ m : Fin (1 * 3), (fun n : Fin (1 * 3) =>
      id ((0 : ℝ) - ∑ c : Fin 3, (0 : ℝ) * oneHotRow (D := 1) 3 (fun _ => v) n.divNat c) -
        oneHotRow (D := 1) 3 (fun _ => v) n.divNat n.modNat * 1e9) m =
      if ((m : ℕ) : ℤ) = v then -1e9 else 0 := by
    intro m
    have hm : ((m.modNat : Fin 3) : ℕ) = m := Nat.mod_eq_of_lt (by have := m.2; omega)
    simp only [zero_mul, sum_const_zero, oneHotRow, oneHot, hm, id]
    split_ifs <;> first | omega | norm_num
  unfold cgwgDist
  rw [funext key]
  unfold logSoftmax logsumexp
  congr 2
  have h3 : (univ : Finset (Fin (1 * 3))) = {0, 1, 2} := by decide
  obtain ⟨h0, h1⟩ := hv
  interval_cases v <;> simp [h3] <;> ring

/-- The rest of the batch decides whether chain 0 accepts: one site, three categories, a flat model,
chain 0 moves from category 0 to category 1 with acceptance noise 1/2.  If chain 1 also moves from 0 to
1, chain 0 accepts; if chain 1 moves from 1 to 2, chain 0 rejects.  Hence C18 is false for
`CategoricalGWGSampler`. -/
theorem cgwg_not_chainLocal (tiny : ℝ) (ht : 0 ≤ tiny ∧ tiny < 1 / 2) (s : LBState) :
    ¬ ChainLocal fun B (x : Fin B → Fin 1 → ℤ) (w : Fin B → Fin (1 * 3) × ℝ) =>
      (cgwgStep tiny id 3 (fun _ => 0) (fun _ _ _ => 0) x (fun b => (w b).1) (fun b => (w b).2) s).1 := by
  intro hloc
  have hv : ∀ v : ℤ, 0 ≤ v ∧ v < 3 → (fun _ : Fin 1 => v) ∈ validStates 3 1 := by
    intro v h
    rw [mem_validStates]
    exact fun _ => by exact_mod_cast h
  have key : ∀ (a : ℤ) (n : Fin (1 * 3)), 0 ≤ a ∧ a < 3 → a ≠ ((n : ℕ) : ℤ) →
      ∀ L : ℝ, L = (if a = 1 then -1e9 else 0) - (if n = 0 then -1e9 else 0) →
      (bernoulliLogp tiny (1 / 2) L → (cgwgStep tiny id 3 (fun _ => 0) (fun _ _ _ => 0)
        (![fun _ => 0, fun _ => a]) ![1, n] (fun _ => 1 / 2) s).1 0 = fun _ => 1) ∧
      (¬ bernoulliLogp tiny (1 / 2) L → (cgwgStep tiny id 3 (fun _ => 0) (fun _ _ _ => 0)
        (![fun _ => 0, fun _ => a]) ![1, n] (fun _ => 1 / 2) s).1 0 = fun _ => 0) := by
    intro a n ha hn L hL
    have hx0 : argmaxRow (oneHotRow (D := 1) 3 fun _ => 0) = fun _ => 0 :=
      argmaxRow_oneHotRow (hv 0 (by norm_num))
    have hxa : argmaxRow (oneHotRow (D := 1) 3 fun _ => a) = fun _ => a := argmaxRow_oneHotRow (hv a ha)
    have hy0 : cgwgPropose (D := 1) (C := 3) (fun _ => 0) 1 = fun _ => 1 := by
      funext j; unfold cgwgPropose; rw [if_pos (Subsingleton.elim _ _)]; rfl
    have hr0 : cgwgRevIdx (D := 1) (C := 3) (fun _ => 0) 1 = 0 := by
      unfold cgwgRevIdx; simp
    have hra : cgwgRevIdx (D := 1) (C := 3) (fun _ => a) n = a := by
      have h1 : ((n.divNat : Fin 1) : ℕ) = 0 := by omega
      have h2 : ((n.modNat : Fin 3) : ℕ) = n := Nat.mod_eq_of_lt (by have := n.2; omega)
      unfold cgwgRevIdx cgwgPropose
      simp only [h1, h2, Fin.sum_univ_one]
      rw [if_pos (Subsingleton.elim _ _), if_pos hn]
      simp
    have hg : ∀ v i : ℤ, 0 ≤ v ∧ v < 3 → 0 ≤ i ∧ i < 3 →
        gatherClamp (cgwgDist (D := 1) (C := 3) id (oneHotRow 3 fun _ => v) fun _ _ => 0) i =
          (if i = v then -1e9 else 0) - Real.log (2 + Real.exp (-1e9)) := by
      intro v i hv hi
      have h3 : i.toNat < 1 * 3 := by omega
      have e : i = (((⟨i.toNat, h3⟩ : Fin (1 * 3)) : ℕ) : ℤ) := (Int.toNat_of_nonneg hi.1).symm
      rw [e, gatherClamp_fin, cgwgDist_flat v hv]
    have hn3 : ((n : ℕ) : ℤ) < 3 := by have := n.2; omega
    have hlog : ∀ la : Fin 2 → ℝ, la = (fun b => (0 : ℝ) +
        cgwgLl (fun b => cgwgDist (D := 1) (C := 3) id
            (oneHotRow 3 (cgwgPropose (argmaxRow (oneHotRow 3 ((![fun _ => 0, fun _ => a] :
              Fin 2 → Fin 1 → ℤ) b))) ((![1, n] : Fin 2 → Fin (1 * 3)) b))) fun _ _ => 0)
          (fun b => cgwgRevIdx (argmaxRow (oneHotRow 3 ((![fun _ => 0, fun _ => a] :
              Fin 2 → Fin 1 → ℤ) b))) ((![1, n] : Fin 2 → Fin (1 * 3)) b)) b - 0 -
        cgwgLl (fun b => cgwgDist (D := 1) (C := 3) id (oneHotRow 3 ((![fun _ => 0, fun _ => a] :
              Fin 2 → Fin 1 → ℤ) b)) fun _ _ => 0)
          (fun b => ((((![1, n] : Fin 2 → Fin (1 * 3)) b : Fin (1 * 3)) : ℕ) : ℤ)) b) → la 0 = L := by
      intro la hla
      rw [hla, hL]
      simp only [cgwgLl, Fin.sum_univ_two, Matrix.cons_val_zero, Matrix.cons_val_one, hx0, hxa, hy0, hr0,
        hra]
      rw [hg 1 0 (by norm_num) (by norm_num), hg 1 a (by norm_num) ha,
        hg 0 _ (by norm_num) (by decide), hg 0 _ (by norm_num) ⟨by omega, hn3⟩]
      have e1 : (((1 : Fin (1 * 3)) : ℕ) : ℤ) = 1 := rfl
      have e2 : (((n : ℕ) : ℤ) = 0) ↔ n = 0 := by
        constructor
        · intro h; exact Fin.ext (by simpa using h)
        · intro h; rw [h]; rfl
      rw [e1]
      simp only [e2]
      norm_num
    have hrow : ∀ b, argmaxRow (oneHotRow (D := 1) 3 (cgwgPropose (argmaxRow (oneHotRow 3
        ((![fun _ => 0, fun _ => a] : Fin 2 → Fin 1 → ℤ) b))) ((![1, n] : Fin 2 → Fin (1 * 3)) b))) =
        cgwgPropose (argmaxRow (oneHotRow 3
        ((![fun _ => 0, fun _ => a] : Fin 2 → Fin 1 → ℤ) b))) ((![1, n] : Fin 2 → Fin (1 * 3)) b) := by
      intro b
      refine argmaxRow_oneHotRow (cgwgPropose_valid ?_ _)
      fin_cases b
      · show argmaxRow (oneHotRow (D := 1) 3 fun _ => 0) ∈ _
        rw [hx0]; exact hv 0 (by norm_num)
      · show argmaxRow (oneHotRow (D := 1) 3 fun _ => a) ∈ _
        rw [hxa]; exact hv a ha
    constructor
    · intro hb
      rw [← hlog _ rfl] at hb
      refine (congrArg argmaxRow (mhStep_accept (b := (0 : Fin 2)) (u := fun _ => 1 / 2) hb)).trans ?_
      refine (hrow 0).trans ?_
      simp only [Matrix.cons_val_zero, hx0, hy0]
    · intro hb
      rw [← hlog _ rfl] at hb
      refine (congrArg argmaxRow (mhStep_reject (b := (0 : Fin 2)) (u := fun _ => 1 / 2) hb)).trans ?_
      exact hx0
  have hn1 : ¬ Real.log (1 / 2 + tiny) < -1e9 := by
    have h1 : Real.log (1 / 2) ≤ Real.log (1 / 2 + tiny) :=
      Real.log_le_log (by norm_num) (by linarith)
    have h2 : -1 ≤ Real.log (1 / 2) := by
      have := Real.log_two_lt_d9
      rw [one_div, Real.log_inv]
      linarith
    norm_num at h1 h2 ⊢
    linarith
  have h1 := (key 0 1 (by norm_num) (by decide) 0 (by norm_num)).1 (by
    unfold bernoulliLogp
    exact Real.log_neg (by linarith) (by linarith))
  have h2 := (key 1 2 (by norm_num) (by decide) (-1e9) (by
    rw [if_pos rfl, if_neg (by decide)]; norm_num)).2 hn1
  have := hloc 2 2 (![fun _ => 0, fun _ => 0]) (![fun _ => 0, fun _ => 1])
    (![(1, 1 / 2), (1, 1 / 2)]) (![(1, 1 / 2), (2, 1 / 2)]) 0 0 rfl rfl
  have e1 : ∀ n : Fin (1 * 3), (fun b => ((![(1, 1 / 2), (n, 1 / 2)] : Fin 2 → Fin (1 * 3) × ℝ) b).1) =
      ![1, n] := fun n => by funext b; fin_cases b <;> rfl
  have e2 : ∀ n : Fin (1 * 3), (fun b => ((![(1, 1 / 2), (n, 1 / 2)] : Fin 2 → Fin (1 * 3) × ℝ) b).2) =
      fun _ => 1 / 2 := fun n => by funext b; fin_cases b <;> rfl
  dsimp only at this
  rw [e1, e1, e2, e2, h1, h2] at this
  exact absurd (congrFun this 0) (by norm_num)

/-! ## DMALA with a batch-computed step size: refutation -/

/-- Gradient of the witness: rate 1 at state 0, rate 1/4 at state 1. -/
noncomputable def batchG (x : Fin 1 → ℤ) (_ : Fin 1) : ℝ := if x 0 = 0 then 0 else Real.log 4

theorem batchG_delta (j : Fin 1) : deltaBinary batchG (fun _ => 0) j = 0 ∧
    deltaBinary batchG (fun _ => 1) j = -Real.log 4 := by
  unfold deltaBinary batchG
  constructor <;> norm_num

theorem exp_neg_log_four : Real.exp (-Real.log 4) = 1 / 4 := by
  rw [Real.exp_neg, Real.exp_log (by norm_num)]; norm_num

/-- Flip probabilities of the witness at step size `log T`. -/
theorem batch_flipProb {T : ℝ} (hT : 0 < T) : dmalaFlipProb (Real.log T) 0 = T / (1 + T) ∧
    dmalaFlipProb (Real.log T) (-Real.log 4) = T / (4 + T) := by
  constructor
  · rw [dmalaFlipProb_eq, add_zero]; unfold sigmoid
    rw [Real.exp_neg, Real.exp_log hT]
    field_simp
    ring
  · rw [dmalaFlipProb_eq]; unfold sigmoid
    rw [neg_add, Real.exp_add, neg_neg, Real.exp_neg, Real.exp_log hT, Real.exp_log (by norm_num)]
    field_simp
    ring

/-- At step 0 of an adaptive run without `co_opt_prob` the step size is computed from the mean rate of
the whole batch, so the other chain decides whether chain 0 accepts: one binary site, chain 0 at state 0
proposes a flip with acceptance noise 0.6; it rejects if the other chain is at 0, and accepts if the
other chain is at 1.  Hence C18 is false for adaptive DMALA. -/
theorem dmala_not_chainLocal (c : DCfg) (ha : c.adaptive = true) (hc : c.coOpt = false) (tiny eps : ℝ)
    (ht : 0 ≤ tiny ∧ tiny ≤ 1 / 1000) (he : 0 ≤ eps ∧ eps ≤ 1 / 1000) (s : DState) (hs : s.steps = 0) :
    ¬ ChainLocal fun B (x : Fin B → Fin 1 → ℤ) (w : Fin B → (Fin 1 → Bool) × ℝ) =>
      (dmalaBinaryStep c tiny eps id (fun _ => 0) batchG x (fun b => (w b).1) (fun b => (w b).2) s).1 := by
  intro hloc
  have htau : ∀ loc, dmalaLogTau c s loc = some loc.logTau := by
    intro loc; unfold dmalaLogTau; simp [ha, hc, hs]
  have hrev : ∀ tau loc, dmalaLogTauRev c tau loc = tau := by
    intro tau loc; unfold dmalaLogTauRev; simp [hc]
  have hflip : flipSites (D := 1) (fun _ => 0) (fun _ => true) = fun _ => 1 := by
    funext j; simp [flipSites]
  have key : ∀ (a : ℤ) (T : ℝ), 0 < T →
      (dmalaReset (I := Fin 1) fun b j => id (deltaBinary batchG ((![fun _ => 0, fun _ => a] :
        Fin 2 → Fin 1 → ℤ) b) j)).logTau = Real.log T →
      (bernoulliLogp tiny 0.6 (Real.log (T / (4 + T) + eps) - Real.log (T / (1 + T) + eps)) →
        (dmalaBinaryStep c tiny eps id (fun _ => 0) batchG (![fun _ => 0, fun _ => a])
          (fun _ _ => true) (fun _ => 0.6) s).1 0 = fun _ => 1) ∧
      (¬ bernoulliLogp tiny 0.6 (Real.log (T / (4 + T) + eps) - Real.log (T / (1 + T) + eps)) →
        (dmalaBinaryStep c tiny eps id (fun _ => 0) batchG (![fun _ => 0, fun _ => a])
          (fun _ _ => true) (fun _ => 0.6) s).1 0 = fun _ => 0) := by
    intro a T hT hlt
    have hl : ∀ x : Fin 1 → ℤ, flipLl eps (fun j => dmalaFlipProb (Real.log T)
        (id (deltaBinary batchG x j))) (fun _ => true) =
        Real.log (dmalaFlipProb (Real.log T) (deltaBinary batchG x 0) + eps) := by
      intro x; simp [flipLl]
    simp only [dmalaBinaryStep, htau, hrev, hlt, hl]
    constructor
    · intro hb
      refine (mhStep_accept (b := (0 : Fin 2)) ?_).trans hflip
      simp only [Matrix.cons_val_zero, hflip, batchG_delta, batch_flipProb hT]
      simpa using hb
    · intro hb
      refine mhStep_reject (b := (0 : Fin 2)) ?_
      simp only [Matrix.cons_val_zero, hflip, batchG_delta, batch_flipProb hT]
      simpa using hb
  have hz : ∀ a, (dmalaReset (I := Fin 1) fun b j => id (deltaBinary batchG ((![fun _ => 0,
      fun _ => a] : Fin 2 → Fin 1 → ℤ) b) j)).logTau =
      Real.log 3 - Real.log ((1 + Real.exp (deltaBinary batchG (fun _ => a) 0)) / 2) := by
    intro a
    simp [dmalaReset, meanB, batchG_delta]
  have h1 := (key 0 3 (by norm_num) (by
    rw [hz, (batchG_delta 0).1, Real.exp_zero]; norm_num)).2 (by
      unfold bernoulliLogp
      rw [← Real.log_div (by linarith [he.1]) (by linarith [he.1]), not_lt]
      refine Real.log_le_log (by have := he.1; positivity) ?_
      rw [div_le_iff₀ (by linarith [he.1])]
      nlinarith [ht.1, ht.2, he.1, he.2])
  have h2 := (key 1 (24 / 5) (by norm_num) (by
    rw [hz, (batchG_delta 0).2, exp_neg_log_four, ← Real.log_div (by norm_num) (by norm_num)]
    norm_num)).1 (by
      unfold bernoulliLogp
      rw [← Real.log_div (by linarith [he.1]) (by linarith [he.1])]
      refine Real.log_lt_log (by linarith [ht.1]) ?_
      rw [lt_div_iff₀ (by linarith [he.1])]
      nlinarith [ht.1, ht.2, he.1, he.2])
  have := hloc 2 2 (![fun _ => 0, fun _ => 0]) (![fun _ => 0, fun _ => 1])
    (fun _ => (fun _ => true, 0.6)) (fun _ => (fun _ => true, 0.6)) 0 0 rfl rfl
  dsimp only at this
  rw [h1, h2] at this
  exact absurd (congrFun this 0) (by norm_num)

end Discs
