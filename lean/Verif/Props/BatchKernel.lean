import Verif.Model.BatchKernel
import Verif.Lemmas.Product
import Verif.Props.Gibbs
import Verif.Props.RBM
import Verif.Props.BlockGibbs
import Verif.Props.Batch

/-!
# Property C75: a batch is a set of independent chains

The law of the new batch, written down from the batch step function with all chains and all their draws
together, is the product of the single-chain laws; hence the product of the targets is preserved by the
batch, and after any number of steps the chains are still independent.  False for the Hamming-ball
sampler, which uses one radius for all chains.
-/

namespace Discs

open Finset Spec

variable {B D : ℕ}

theorem gibbs_batch (f : (Fin D → ℤ) → ℝ) (C : ℕ) (s : GibbsState) (x y : Fin B → Fin D → ℤ) :
    gibbsBatchKernel f C s x y = prodKernel (gibbsKernel f C s) x y :=
  batchLaw_prod (r := fun b k => (gibbsStep C (fun _ : Fin 1 => x b) (fun _ => k) s).1 0)
    (fun _ _ => rfl) y

theorem blockGibbs_batch (f : (Fin D → ℤ) → ℝ) (C b : ℕ) (s : BlockState) (x y : Fin B → Fin D → ℤ) :
    blockGibbsBatchKernel f C b s x y = prodKernel (blockGibbsKernel f C b s) x y :=
  batchLaw_prod (r := fun i k => (blockGibbsStep C b (fun _ : Fin 1 => x i) (fun _ => k) s).1 0)
    (fun _ _ => rfl) y

theorem rbm_batch {V H : ℕ} (P : RBMParams V H) (x y : Fin B → Fin V → ℤ) :
    rbmBatchKernel P x y = prodKernel (rbmKernel P) x y :=
  batchLaw_prod (r := fun b (d : (Fin H → Bool) × (Fin V → Bool)) =>
    (rbmStep (fun _ : Fin 1 => x b) (fun _ => d.1) (fun _ => d.2) rbmInitState).1 0) (fun _ _ => rfl) y

theorem rw_batch (adaptive : Bool) (target tiny : ℝ) (f : (Fin D → ℤ) → ℝ) (C : ℕ) (s : RWState)
    (x y : Fin B → Fin D → ℤ) :
    rwBatchKernel adaptive target tiny f C s x y = prodKernel (rwKernel adaptive target tiny f C s) x y :=
  batchLawU_prod (r := fun b d u => (rwStep adaptive target tiny f C (fun _ : Fin 1 => x b) (fun _ => d)
    (fun _ => u) s).1 0) (fun _ _ _ => by cases adaptive <;> rfl) y

theorem gwgBinary_batch (k : ℕ) (tiny : ℝ) (h : ℝ → ℝ) (f : (Fin D → ℤ) → ℝ)
    (g : (Fin D → ℤ) → Fin D → ℝ) (mask : Option (Fin D → ℝ)) (s : LBState) (x y : Fin B → Fin D → ℤ) :
    gwgBinaryBatchKernel k tiny h f g mask s x y = prodKernel (gwgBinaryKernel k tiny h f g mask s) x y :=
  batchLawU_prod (r := fun b idx u => (gwgBinaryStep tiny h f g (mask.map fun m (_ : Fin 1) => m)
    (fun _ : Fin 1 => x b) (fun _ => idx) (fun _ => u) s).1 0) (fun _ _ _ => by cases mask <;> rfl) y

theorem gwgAdaptive_batch (hD : 0 < D) (target tiny : ℝ) (h : ℝ → ℝ) (f : (Fin D → ℤ) → ℝ)
    (g : (Fin D → ℤ) → Fin D → ℝ) (mask : Option (Fin D → ℝ)) (s : LBState) (x y : Fin B → Fin D → ℤ) :
    gwgAdaptiveBatchKernel hD target tiny h f g mask s x y =
      prodKernel (gwgAdaptiveKernel hD target tiny h f g mask s) x y :=
  batchLawU_prod (r := fun b idx u => (gwgAdaptiveStep hD target tiny h f g
    (mask.map fun m (_ : Fin 1) => m) (fun _ : Fin 1 => x b) s (fun _ => idx) (fun _ => u)).1 0)
    (fun _ _ _ => by cases mask <;> rfl) y

theorem pafsBinary_batch (k : ℕ) (tiny : ℝ) (h : ℝ → ℝ) (f : (Fin D → ℤ) → ℝ)
    (lr : (Fin D → ℤ) → Fin D → ℝ) (mask : Option (Fin D → ℝ)) (s : LBState) (x y : Fin B → Fin D → ℤ) :
    pafsBinaryBatchKernel k tiny h f lr mask s x y =
      prodKernel (pafsBinaryKernel k tiny h f lr mask s) x y :=
  batchLawU_prod (r := fun b idx u => (pafsBinaryStep tiny 4 h f lr (mask.map fun m (_ : Fin 1) => m)
    (fun _ => x b) (fun _ => idx) (fun _ => u) s).1 0) (fun _ _ _ => by cases mask <;> rfl) y

theorem pafsAdaptive_batch (target tiny : ℝ) (h : ℝ → ℝ) (f : (Fin D → ℤ) → ℝ)
    (lr : (Fin D → ℤ) → Fin D → ℝ) (mask : Option (Fin D → ℝ)) (s : LBState) (x y : Fin B → Fin D → ℤ) :
    pafsAdaptiveBatchKernel target tiny h f lr mask s x y =
      prodKernel (pafsAdaptiveKernel target tiny h f lr mask s) x y :=
  batchLawU_prod (r := fun b σ u => (pafsAdaptiveStep target tiny 4 h f lr
    (mask.map fun m (_ : Fin 1) => m) (fun _ => x b) (fun _ => σ) (fun _ => u) s).1 0)
    (fun _ _ _ => by cases mask <;> rfl) y

theorem pafsCategAdaptive_batch (target tiny : ℝ) (h : ℝ → ℝ) (C : ℕ) (f : (Fin D → Fin C → ℝ) → ℝ)
    (lr : (Fin D → Fin C → ℝ) → Fin D → Fin C → ℝ) (mask : Option (Fin D → ℝ)) (s : LBState)
    (x y : Fin B → Fin D → ℤ) :
    pafsCategAdaptiveBatchKernel target tiny h C f lr mask s x y =
      prodKernel (pafsCategAdaptiveKernel target tiny h C f lr mask s) x y := by
  have hstep : ∀ (w : Fin B → Equiv.Perm (Fin D) × (Fin D → Fin C)) (u : Fin B → ℝ) (b : Fin B),
      (pafsCategAdaptiveStep target tiny 4 h C f lr (mask.map fun m (_ : Fin B) => m) x
        (fun b => (w b).1) (fun b => (w b).2) u s).1 b =
      (pafsCategAdaptiveStep target tiny 4 h C f lr (mask.map fun m (_ : Fin 1) => m) (fun _ => x b)
        (fun _ => (w b).1) (fun _ => (w b).2) (fun _ => u b) s).1 0 := by
    intro w u b; cases mask <;> rfl
  unfold pafsCategAdaptiveBatchKernel prodKernel pafsCategAdaptiveKernel
  exact batchLawU_prod hstep y

theorem dmala_tau_fixed (c : DCfg) (s : DState)
    (hfix : c.adaptive = false ∨ c.coOpt = false ∧ s.steps ≠ 0) :
    ∃ t, ∀ loc, dmalaLogTau c s loc = t := by
  rcases hfix with h0 | ⟨h0, h1⟩
  · exact ⟨_, fun loc => by unfold dmalaLogTau; rw [h0]; rfl⟩
  · cases ha : c.adaptive
    · exact ⟨_, fun loc => by unfold dmalaLogTau; rw [ha]; rfl⟩
    · exact ⟨s.logTau, fun loc => by unfold dmalaLogTau; simp [ha, h0, h1]⟩

theorem dmalaBinary_batch (c : DCfg) (tiny eps : ℝ) (h : ℝ → ℝ) (f : (Fin D → ℤ) → ℝ)
    (g : (Fin D → ℤ) → Fin D → ℝ) (s : DState)
    (hfix : c.adaptive = false ∨ c.coOpt = false ∧ s.steps ≠ 0) (x y : Fin B → Fin D → ℤ) :
    dmalaBinaryBatchKernel c tiny eps h f g s x y =
      prodKernel (dmalaBinaryKernel c tiny eps h f g s) x y := by
  obtain ⟨t, ht⟩ := dmala_tau_fixed c s hfix
  have hloc := dmalaBinary_chainLocal_partial c tiny eps h f g s hfix
  unfold dmalaBinaryBatchKernel prodKernel dmalaBinaryKernel dmalaFlipLaw dmalaTau1
  simp only [ht]
  clear ht
  exact batchU_of_chainLocal hloc (fun xb => match t with
      | none => fun flip : Fin D → Bool => if flip = fun _ => false then 1 else 0
      | some tau => flipLaw fun j => dmalaFlipProb tau (h (deltaBinary g xb j))) x y

theorem dmalaCateg_batch (c : DCfg) (tiny : ℝ) (h : ℝ → ℝ) (C : ℕ) (f : (Fin D → Fin C → ℝ) → ℝ)
    (g : (Fin D → Fin C → ℝ) → Fin D → Fin C → ℝ) (s : DState)
    (hfix : c.adaptive = false ∨ c.coOpt = false ∧ s.steps ≠ 0) (x y : Fin B → Fin D → ℤ) :
    dmalaCategBatchKernel c tiny h C f g s x y = prodKernel (dmalaCategKernel c tiny h C f g s) x y := by
  obtain ⟨t, ht⟩ := dmala_tau_fixed c s hfix
  have hloc := dmalaCateg_chainLocal_partial c tiny h C f g s hfix
  unfold dmalaCategBatchKernel prodKernel dmalaCategKernel dmalaCategLaw dmalaCategTau1
  simp only [ht]
  clear ht
  exact batchU_of_chainLocal hloc (fun xb => match t with
      | none => categLaw fun _ _ => 0
      | some tau => categLaw fun j => dmalaCategDist tau
          (fun k => h (deltaCateg g (oneHotRow C xb) j k)) (oneHotRow C xb j)) x y

theorem dlmcBinary_batch (c : DCfg) (tiny eps : ℝ) (h : ℝ → ℝ) (f : (Fin D → ℤ) → ℝ)
    (g : (Fin D → ℤ) → Fin D → ℝ) (s : DState) (hs : s.steps ≠ 0)
    (hfix : c.adaptive = false ∨ c.coOpt = false) (x y : Fin B → Fin D → ℤ) :
    dlmcBinaryBatchKernel c tiny eps h f g s x y =
      prodKernel (dlmcBinaryKernel c tiny eps h f g s) x y := by
  obtain ⟨ht, -⟩ := dlmc_tau_fixed c s hs hfix
  have hloc := dlmcBinary_chainLocal_partial c tiny eps h f g s hs hfix
  unfold dlmcBinaryBatchKernel prodKernel dlmcBinaryKernel dlmcFlipLaw dlmcTau1
  simp only [ht]
  exact batchU_of_chainLocal hloc (fun xb => match s.logTau with
      | none => fun flip : Fin D → Bool => if flip = fun _ => false then 1 else 0
      | some tau => flipLaw fun j => (dlmcFlipProb c.solver tau (h (deltaBinary g xb j))
          (deltaBinary g xb j)).toOption.getD 0) x fun b => some (y b)

theorem dlmcCateg_batch (c : DCfg) (tiny : ℝ) (h : ℝ → ℝ) (C : ℕ) (f : (Fin D → Fin C → ℝ) → ℝ)
    (g : (Fin D → Fin C → ℝ) → Fin D → Fin C → ℝ) (s : DState) (hs : s.steps ≠ 0)
    (hfix : c.adaptive = false ∨ c.coOpt = false) (x y : Fin B → Fin D → ℤ) :
    dlmcCategBatchKernel c tiny h C f g s x y = prodKernel (dlmcCategKernel c tiny h C f g s) x y := by
  obtain ⟨ht, -⟩ := dlmc_tau_fixed c s hs hfix
  have hloc := dlmcCateg_chainLocal_partial c tiny h C f g s hs hfix
  unfold dlmcCategBatchKernel prodKernel dlmcCategKernel dlmcCategLaw dlmcCategTau1
  simp only [ht]
  exact batchU_of_chainLocal hloc (fun xb => match s.logTau with
      | none => categLaw fun _ _ => 0
      | some tau => categLaw fun j => (dlmcCategDist c.solver tau
          (fun k => h (deltaCateg g (oneHotRow C xb) j k)) (deltaCateg g (oneHotRow C xb) j)
          (oneHotRow C xb j)).toOption.getD 0) x fun b => some (y b)

/-! ### Consequences for runs -/

/-- **C75 (runs).** If at every step the batch moves as independent chains, the joint law of the batch
after `n` steps is the product of the laws of the single chains after `n` steps. -/
theorem batch_run {S : Finset (Fin D → ℤ)} {K : ℕ → (Fin D → ℤ) → (Fin D → ℤ) → ℝ}
    {KB : ℕ → (Fin B → Fin D → ℤ) → (Fin B → Fin D → ℤ) → ℝ}
    (h : ∀ t x y, KB t x y = prodKernel (K t) x y) (n : ℕ) (x y : Fin B → Fin D → ℤ) :
    iterate (prodStates B S) KB n x y = ∏ b, iterate S K n (x b) (y b) := by
  have : KB = fun t => prodKernel (K t) := by funext t x y; exact h t x y
  rw [this]
  exact prodKernel_iterate n x y

/-- **C75 (Gibbs).** Any number of Gibbs steps on a batch leaves the product of the targets invariant. -/
theorem gibbs_batch_invariant (f : (Fin D → ℤ) → ℝ) {C : ℕ} (hC : 0 < C) (s : ℕ → GibbsState) (n : ℕ) :
    Invariant (prodStates B (validStates C D)) (prodTarget fun x => Real.exp (f x))
      (iterate (prodStates B (validStates C D)) (fun t => gibbsBatchKernel f C (s t)) n) := by
  have e : (fun t => gibbsBatchKernel (B := B) f C (s t)) = fun t => prodKernel (gibbsKernel f C (s t)) := by
    funext t x y; exact gibbs_batch f C (s t) x y
  rw [e]
  exact invariant_iterate (fun t => prodKernel_invariant
    (invariant_of_reversible (gibbs_reversible f hC _) (gibbs_stochastic f hC _))) n

theorem blockGibbs_batch_invariant (f : (Fin D → ℤ) → ℝ) {C b : ℕ} (hC : 0 < C) (s : ℕ → BlockState)
    (n : ℕ) :
    Invariant (prodStates B (validStates C D)) (prodTarget fun x => Real.exp (f x))
      (iterate (prodStates B (validStates C D)) (fun t => blockGibbsBatchKernel f C b (s t)) n) := by
  have e : (fun t => blockGibbsBatchKernel (B := B) f C b (s t)) =
      fun t => prodKernel (blockGibbsKernel f C b (s t)) := by
    funext t x y; exact blockGibbs_batch f C b (s t) x y
  rw [e]
  exact invariant_iterate (fun t => prodKernel_invariant
    (invariant_of_reversible (blockGibbs_reversible f C b _) (blockGibbs_stochastic f hC _))) n

theorem rbm_batch_invariant {V H : ℕ} (P : RBMParams V H) (n : ℕ) :
    Invariant (prodStates B (validStates 2 V)) (prodTarget fun x => Real.exp (rbmForward P fun i => (x i : ℝ)))
      (iterate (prodStates B (validStates 2 V)) (fun _ => rbmBatchKernel P) n) := by
  have e : (fun _ : ℕ => rbmBatchKernel (B := B) P) = fun _ => prodKernel (rbmKernel P) := by
    funext t x y; exact rbm_batch P x y
  rw [e]
  exact invariant_iterate (fun t => prodKernel_invariant
    (invariant_of_reversible (rbm_blockgibbs_reversible P).2 (rbm_blockgibbs_reversible P).1)) n

/-- Near-invariance of a run of single chains carries over to the run of the batch. -/
theorem batch_nearlyInvariant {S : Finset (Fin D → ℤ)} {π : (Fin D → ℤ) → ℝ}
    {K : ℕ → (Fin D → ℤ) → (Fin D → ℤ) → ℝ} {KB : ℕ → (Fin B → Fin D → ℤ) → (Fin B → Fin D → ℤ) → ℝ}
    (h : ∀ t x y, KB t x y = prodKernel (K t) x y) (hπ : ∀ x ∈ S, 0 ≤ π x)
    (hst : ∀ t, Stochastic S (K t)) {n : ℕ} {ε : ℝ} (hn : NearlyInvariant S π (iterate S K n) ε) :
    NearlyInvariant (prodStates B S) (prodTarget π) (iterate (prodStates B S) KB n) (B * ε) := by
  have e : iterate (prodStates B S) KB n = prodKernel (iterate S K n) := by
    funext x y; exact batch_run h n x y
  rw [e]
  exact prodKernel_nearlyInvariant hπ (stochastic_iterate hst n) hn

/-- **C75 (random walk).** `n` steps of a batch of `B` chains move the product target by at most
`B · n · 2e-24` of its mass. -/
theorem rw_batch_nearlyInvariant (adaptive : Bool) (target : ℝ) (f : (Fin D → ℤ) → ℝ) {C : ℕ}
    (hC : 2 ≤ C) (s : ℕ → RWState) (h0 : ∀ t, 0 ≤ (s t).radius) (h1 : ∀ t, (s t).radius ≤ D) (n : ℕ) :
    NearlyInvariant (prodStates B (validStates C D)) (prodTarget fun x => Real.exp (f x))
      (iterate (prodStates B (validStates C D))
        (fun t => rwBatchKernel adaptive target mhTiny f C (s t)) n) (B * (n * (2 * mhTiny))) :=
  batch_nearlyInvariant (fun t => rw_batch adaptive target mhTiny f C (s t))
    (fun _ _ => (Real.exp_pos _).le)
    (fun t => rw_stochastic adaptive target mhTiny_nonneg f hC _ (h0 t) (h1 t))
    (rw_nearlyInvariant_run adaptive target f hC s h0 h1 n)

/-- **C75 (binary GWG).** -/
theorem gwg_batch_nearlyInvariant (hD : 0 < D) (k : ℕ) (h : ℝ → ℝ) (f : (Fin D → ℤ) → ℝ)
    (g : (Fin D → ℤ) → Fin D → ℝ) (mask : Option (Fin D → ℝ)) (s : ℕ → LBState) (n : ℕ) :
    NearlyInvariant (prodStates B (validStates 2 D)) (prodTarget fun x => Real.exp (f x))
      (iterate (prodStates B (validStates 2 D))
        (fun t => gwgBinaryBatchKernel k mhTiny h f g mask (s t)) n) (B * (n * (2 * mhTiny))) :=
  batch_nearlyInvariant (fun t => gwgBinary_batch k mhTiny h f g mask (s t))
    (fun _ _ => (Real.exp_pos _).le) (fun t => gwg_stochastic hD k mhTiny_nonneg h f g mask (s t))
    (gwg_nearlyInvariant_run hD k h f g mask s n)

/-- **C75 (path-auxiliary).** -/
theorem pafs_batch_nearlyInvariant (hD : 0 < D) {k : ℕ} (hk : k ≤ D) (h : ℝ → ℝ) (f : (Fin D → ℤ) → ℝ)
    (lr : (Fin D → ℤ) → Fin D → ℝ) (mask : Option (Fin D → ℝ)) (s : ℕ → LBState) (n : ℕ) :
    NearlyInvariant (prodStates B (validStates 2 D)) (prodTarget fun x => Real.exp (f x))
      (iterate (prodStates B (validStates 2 D))
        (fun t => pafsBinaryBatchKernel k mhTiny h f lr mask (s t)) n) (B * (n * (2 * mhTiny))) :=
  batch_nearlyInvariant (fun t => pafsBinary_batch k mhTiny h f lr mask (s t))
    (fun _ _ => (Real.exp_pos _).le) (fun t => pafs_stochastic hD hk mhTiny_nonneg h f lr mask (s t))
    (pafs_nearlyInvariant_run hD hk h f lr mask s n)

/-! ### Hamming ball: refutation -/

/-- Given the radius, the chains of the Hamming-ball sampler are independent. -/
theorem hb_batch (f : (Fin D → ℤ) → ℝ) (C b m : ℕ) (s : BlockState) (x y : Fin B → Fin D → ℤ) :
    hbBatchKernel f C b m s x y = ∑ rad, softmax (hammingLogit m) rad *
      ∏ i, law (hbRowLaw f C b s rad (x i))
        (fun d => (hbStep C b (fun _ : Fin 1 => x i) rad (fun _ => d) s).1 0) (y i) := by
  unfold hbBatchKernel
  refine Finset.sum_congr rfl fun rad _ => ?_
  congr 1
  exact batchLaw_prod (r := fun i d => (hbStep C b (fun _ : Fin 1 => x i) rad (fun _ => d) s).1 0)
    (fun _ _ => rfl) y

theorem hb_single (f : (Fin D → ℤ) → ℝ) (C b m : ℕ) (s : BlockState) (x y : Fin D → ℤ) :
    hbKernel f C b m s x y = ∑ rad, softmax (hammingLogit m) rad *
      law (hbRowLaw f C b s rad x) (fun d => (hbStep C b (fun _ : Fin 1 => x) rad (fun _ => d) s).1 0) y := by
  unfold hbKernel law hbDrawLaw hbRowLaw
  rw [Fintype.sum_prod_type]
  refine Finset.sum_congr rfl fun rad _ => ?_
  rw [Finset.mul_sum]
  refine Finset.sum_congr rfl fun d _ => ?_
  split_ifs <;> ring

/-- The refuting case: two binary sites in one block, flat energy, two chains. -/
def hbRefState : BlockState := ⟨0, 0, 0⟩

theorem hb_ref_const (rad : Fin 2) (d : Fin 2 × Fin 1 × Fin 3) :
    hbRowLaw (D := 2) (fun _ => 0) 2 2 hbRefState rad (fun _ => 0) d = 1 / 6 := by
  unfold hbRowLaw softmax
  simp
  norm_num

theorem hb_ref_row (rad : Fin 2) : law (hbRowLaw (D := 2) (fun _ => 0) 2 2 hbRefState rad fun _ => 0)
    (fun d => (hbStep 2 2 (fun _ : Fin 1 => fun _ : Fin 2 => 0) rad (fun _ => d) hbRefState).1 0)
      (fun _ => 1) = if rad = 0 then 0 else 1 / 3 := by
  unfold law
  have hc : ((univ : Finset (Fin 2 × Fin 1 × Fin 3)).filter fun d =>
      (hbStep 2 2 (fun _ : Fin 1 => fun _ : Fin 2 => 0) rad (fun _ => d) hbRefState).1 0 = fun _ => 1).card
        = if rad = 0 then 0 else 2 := by
    revert rad; decide
  have h2 : ∀ d : Fin 2 × Fin 1 × Fin 3,
      (if (hbStep 2 2 (fun _ : Fin 1 => fun _ : Fin 2 => 0) rad (fun _ => d) hbRefState).1 0 = fun _ => 1
        then hbRowLaw (D := 2) (fun _ => 0) 2 2 hbRefState rad (fun _ => 0) d else 0) =
      if (hbStep 2 2 (fun _ : Fin 1 => fun _ : Fin 2 => 0) rad (fun _ => d) hbRefState).1 0 = fun _ => 1
        then 1 / 6 else 0 := fun d => by rw [hb_ref_const]
  refine (Finset.sum_congr rfl fun d _ => h2 d).trans ?_
  refine (Finset.sum_ite _ _).trans ?_
  rw [Finset.sum_const, Finset.sum_const_zero, hc]
  split_ifs <;> norm_num

/-- **C75 refuted for the Hamming-ball sampler.** -/
theorem hb_batch_not_independent :
    hbBatchKernel (B := 2) (D := 2) (fun _ => 0) 2 2 2 hbRefState (fun _ _ => 0) (fun _ _ => 1) ≠
      prodKernel (B := 2) (hbKernel (D := 2) (fun _ => 0) 2 2 2 hbRefState) (fun _ _ => 0)
        (fun _ _ => 1) := by
  rw [hb_batch]
  unfold prodKernel
  simp only [hb_single, Fin.sum_univ_two, Fin.prod_univ_two, hb_ref_row]
  have h1 : softmax (hammingLogit 2) 0 + softmax (hammingLogit 2) 1 = 1 := by
    rw [← Fin.sum_univ_two]; exact (isProb_softmax _).2
  have h0 : 0 < softmax (hammingLogit 2) 0 := softmax_pos _ _
  have h2 : 0 < softmax (hammingLogit 2) 1 := softmax_pos _ _
  intro h
  simp only [if_true, one_ne_zero, if_false] at h
  nlinarith

/-- The hypotheses of the batch theorems are met by a non-constant energy on three binary sites. -/
example : Invariant (prodStates 5 (validStates 2 3)) (prodTarget fun x => Real.exp (x 0 + 2 * x 1))
    (iterate (prodStates 5 (validStates 2 3)) (fun t => gibbsBatchKernel (fun x => x 0 + 2 * x 1) 2
      ⟨t, 0, t % 3⟩) 7) :=
  gibbs_batch_invariant _ (by norm_num) (fun t => ⟨t, 0, t % 3⟩) 7

example (f : (Fin 3 → ℤ) → ℝ) (g : (Fin 3 → ℤ) → Fin 3 → ℝ) (x y : Fin 4 → Fin 3 → ℤ) :
    dmalaBinaryBatchKernel ⟨true, false, 1, 0.5, 100, 20, 3, "interpolate"⟩ mhTiny 1e-10 id f g
      ⟨3, 12, some 1, 0⟩ x y =
    prodKernel (dmalaBinaryKernel ⟨true, false, 1, 0.5, 100, 20, 3, "interpolate"⟩ mhTiny 1e-10 id f g
      ⟨3, 12, some 1, 0⟩) x y :=
  dmalaBinary_batch _ _ _ _ _ _ _ (.inr ⟨rfl, by norm_num⟩) x y

end Discs
