import Verif.Spec.Product
import Verif.Model.Gibbs
import Verif.Model.BlockGibbs
import Verif.Model.HammingBall
import Verif.Model.RBM
import Verif.Model.RandomWalk
import Verif.Model.GWG
import Verif.Model.PathAux
import Verif.Model.DMALA
import Verif.Model.DLMC

/-!
# Transition probabilities of a whole batch

The step functions of the samplers act on a batch of `B` chains.  Here the law of the new batch is
written down for all chains together: `jax.random` calls with a batch shape give independent draws for
the rows.  The laws of the draws are those of the single-chain kernels, except that step sizes of DMALA
and DLMC are computed from the whole batch, and the radius of the Hamming-ball sampler is one draw for
the whole batch (`hammingball.py:77`).
-/

namespace Discs

open Finset Spec

variable {B D : ℕ}

/-- `gibbs.py:31-55` on a batch. -/
noncomputable def gibbsBatchKernel (f : (Fin D → ℤ) → ℝ) (C : ℕ) (s : GibbsState)
    (x y : Fin B → Fin D → ℤ) : ℝ :=
  batchLaw (fun b => gibbsDraw f C (x b) s) (fun k => (gibbsStep C x k s).1) y

/-- `blockgibbs.py:39-68` on a batch. -/
noncomputable def blockGibbsBatchKernel (f : (Fin D → ℤ) → ℝ) (C b : ℕ) (s : BlockState)
    (x y : Fin B → Fin D → ℤ) : ℝ :=
  batchLaw (fun i => softmax (blockScores f C b (x i) s.index)) (fun k => (blockGibbsStep C b x k s).1) y

/-- `blockgibbs.py:81-85` on a batch. -/
noncomputable def rbmBatchKernel {V H : ℕ} (P : RBMParams V H) (x y : Fin B → Fin V → ℤ) : ℝ :=
  batchLaw (fun b => rbmDrawLaw P (x b))
    (fun d => (rbmStep x (fun b => (d b).1) (fun b => (d b).2) rbmInitState).1) y

/-- Law of the draws of one chain of the Hamming-ball sampler given the radius. -/
noncomputable def hbRowLaw (f : (Fin D → ℤ) → ℝ) (C b : ℕ) (s : BlockState) (rad : Fin 2)
    (x : Fin D → ℤ) (d : Fin b × Fin (C - 1) × Fin (b * (C - 1) + 1)) : ℝ :=
  (1 / (b : ℝ)) * (1 / ((C - 1 : ℕ) : ℝ)) *
    softmax (fun n => f (hbCandidates C b s.index (hbAux C s.index x rad d.1 d.2.1) n)) d.2.2

/-- `hammingball.py:70-123` on a batch: one radius for all chains. -/
noncomputable def hbBatchKernel (f : (Fin D → ℤ) → ℝ) (C b m : ℕ) (s : BlockState)
    (x y : Fin B → Fin D → ℤ) : ℝ :=
  ∑ rad, softmax (hammingLogit m) rad *
    batchLaw (fun i => hbRowLaw f C b s rad (x i)) (fun d => (hbStep C b x rad d s).1) y

/-- `randomwalk.py:26-60` on a batch. -/
noncomputable def rwBatchKernel (adaptive : Bool) (target tiny : ℝ) (f : (Fin D → ℤ) → ℝ) (C : ℕ)
    (s : RWState) (x y : Fin B → Fin D → ℤ) : ℝ :=
  batchLawU (fun _ => rwDrawLaw C D s.radius) (fun d u => (rwStep adaptive target tiny f C x d u s).1) y

/-- Binary GWG (`gwg.py:23-77`) on a batch. -/
noncomputable def gwgBinaryBatchKernel (k : ℕ) (tiny : ℝ) (h : ℝ → ℝ) (f : (Fin D → ℤ) → ℝ)
    (g : (Fin D → ℤ) → Fin D → ℝ) (mask : Option (Fin D → ℝ)) (s : LBState)
    (x y : Fin B → Fin D → ℤ) : ℝ :=
  batchLawU (fun b => gwgDrawLaw (k := k) h g mask (x b))
    (fun idx u => (gwgBinaryStep tiny h f g (mask.map fun m (_ : Fin B) => m) x idx u s).1) y

/-- Adaptive GWG (`gwg.py:80-122`) on a batch. -/
noncomputable def gwgAdaptiveBatchKernel (hD : 0 < D) (target tiny : ℝ) (h : ℝ → ℝ)
    (f : (Fin D → ℤ) → ℝ) (g : (Fin D → ℤ) → Fin D → ℝ) (mask : Option (Fin D → ℝ)) (s : LBState)
    (x y : Fin B → Fin D → ℤ) : ℝ :=
  batchLawU (fun b => gwgDrawLaw (k := numFlips D s.radius) h g mask (x b))
    (fun idx u => (gwgAdaptiveStep hD target tiny h f g (mask.map fun m (_ : Fin B) => m) x s idx u).1) y

/-- Path-auxiliary sampler (`path_auxiliary.py:14-33, 90-174`), fixed number of flips, on a batch. -/
noncomputable def pafsBinaryBatchKernel (k : ℕ) (tiny : ℝ) (h : ℝ → ℝ) (f : (Fin D → ℤ) → ℝ)
    (lr : (Fin D → ℤ) → Fin D → ℝ) (mask : Option (Fin D → ℝ)) (s : LBState)
    (x y : Fin B → Fin D → ℤ) : ℝ :=
  batchLawU (fun b => pafsIdxLaw (pafsLogProb h lr mask (x b))) (fun (idx : Fin B → Fin k → Fin D) u =>
    (pafsBinaryStep tiny 4 h f lr (mask.map fun m (_ : Fin B) => m) x idx u s).1) y

/-- The same with adaptive number of flips. -/
noncomputable def pafsAdaptiveBatchKernel (target tiny : ℝ) (h : ℝ → ℝ) (f : (Fin D → ℤ) → ℝ)
    (lr : (Fin D → ℤ) → Fin D → ℝ) (mask : Option (Fin D → ℝ)) (s : LBState)
    (x y : Fin B → Fin D → ℤ) : ℝ :=
  batchLawU (fun b => pafsOrderLaw (pafsLogProb h lr mask (x b))) (fun σ u =>
    (pafsAdaptiveStep target tiny 4 h f lr (mask.map fun m (_ : Fin B) => m) x σ u s).1) y

/-- The same for categorical variables. -/
noncomputable def pafsCategAdaptiveBatchKernel (target tiny : ℝ) (h : ℝ → ℝ) (C : ℕ)
    (f : (Fin D → Fin C → ℝ) → ℝ) (lr : (Fin D → Fin C → ℝ) → Fin D → Fin C → ℝ)
    (mask : Option (Fin D → ℝ)) (s : LBState) (x y : Fin B → Fin D → ℤ) : ℝ :=
  batchLawU (fun b => pafsCategAdaptiveLaw (pafsCategLogProb h lr mask (oneHotRow C (x b)))) (fun w u =>
    (pafsCategAdaptiveStep target tiny 4 h C f lr (mask.map fun m (_ : Fin B) => m) x
      (fun b => (w b).1) (fun b => (w b).2) u s).1) y

/-- Binary DMALA (`dmala.py:84-117`) on a batch; the step size is computed from the batch. -/
noncomputable def dmalaBinaryBatchKernel (c : DCfg) (tiny eps : ℝ) (h : ℝ → ℝ) (f : (Fin D → ℤ) → ℝ)
    (g : (Fin D → ℤ) → Fin D → ℝ) (s : DState) (x y : Fin B → Fin D → ℤ) : ℝ :=
  batchLawU (fun b =>
      match dmalaLogTau c s (dmalaReset fun b j => h (deltaBinary g (x b) j)) with
      | none => fun flip : Fin D → Bool => if flip = fun _ => false then 1 else 0
      | some tau => flipLaw fun j => dmalaFlipProb tau (h (deltaBinary g (x b) j)))
    (fun flip u => (dmalaBinaryStep c tiny eps h f g x flip u s).1) y

/-- Categorical DMALA on a batch. -/
noncomputable def dmalaCategBatchKernel (c : DCfg) (tiny : ℝ) (h : ℝ → ℝ) (C : ℕ)
    (f : (Fin D → Fin C → ℝ) → ℝ) (g : (Fin D → Fin C → ℝ) → Fin D → Fin C → ℝ) (s : DState)
    (x y : Fin B → Fin D → ℤ) : ℝ :=
  batchLawU (fun b =>
      match dmalaLogTau c s (dmalaReset (I := Fin D × Fin C) fun b i =>
        h (deltaCateg g (oneHotRow C (x b)) i.1 i.2)) with
      | none => categLaw fun _ _ => 0
      | some tau => categLaw fun j => dmalaCategDist tau
          (fun k => h (deltaCateg g (oneHotRow C (x b)) j k)) (oneHotRow C (x b) j))
    (fun v u => (dmalaCategStep c tiny h C f g x v u s).1) y

/-- Binary DLMC (`dlmc.py:76-114`) on a batch (of the runs that do not raise). -/
noncomputable def dlmcBinaryBatchKernel (c : DCfg) (tiny eps : ℝ) (h : ℝ → ℝ) (f : (Fin D → ℤ) → ℝ)
    (g : (Fin D → ℤ) → Fin D → ℝ) (s : DState) (x y : Fin B → Fin D → ℤ) : ℝ :=
  batchLawU (fun b =>
      match dlmcLogTau c s (dlmcReset c fun b j => h (deltaBinary g (x b) j)) with
      | none => fun flip : Fin D → Bool => if flip = fun _ => false then 1 else 0
      | some tau => flipLaw fun j =>
          (dlmcFlipProb c.solver tau (h (deltaBinary g (x b) j)) (deltaBinary g (x b) j)).toOption.getD 0)
    (fun flip u b => (dlmcBinaryStep c tiny eps h f g x flip u s).toOption.map fun r => r.1 b)
    (fun b => some (y b))

/-- Categorical DLMC on a batch. -/
noncomputable def dlmcCategBatchKernel (c : DCfg) (tiny : ℝ) (h : ℝ → ℝ) (C : ℕ)
    (f : (Fin D → Fin C → ℝ) → ℝ) (g : (Fin D → Fin C → ℝ) → Fin D → Fin C → ℝ) (s : DState)
    (x y : Fin B → Fin D → ℤ) : ℝ :=
  batchLawU (fun b =>
      match dlmcLogTau c s (dlmcReset c (I := Fin D × Fin C) fun b i =>
        h (deltaCateg g (oneHotRow C (x b)) i.1 i.2)) with
      | none => categLaw fun _ _ => 0
      | some tau => categLaw fun j => (dlmcCategDist c.solver tau
          (fun k => h (deltaCateg g (oneHotRow C (x b)) j k)) (deltaCateg g (oneHotRow C (x b)) j)
          (oneHotRow C (x b) j)).toOption.getD 0)
    (fun v u b => (dlmcCategStep c tiny h C f g x v u s).toOption.map fun r => r.1 b)
    (fun b => some (y b))

end Discs
