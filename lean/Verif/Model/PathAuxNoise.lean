import Verif.Model.PathAux
import Verif.Spec.Noise

/-!
# The path-auxiliary sampler from its uniform noise

`Model/PathAux.lean` takes the drawn sites (or the order of the sites) as the randomness of a step.  Here the
step starts from what the code draws: one uniform number per site for the Gumbel perturbation
(`math_util.py:23-27`, called from `math_util.py:82` and `math_util.py:120`) and one for the acceptance test.
-/

namespace Discs

open Finset

variable {D : ℕ}

theorem topK_length {n k : ℕ} (hk : k ≤ n) (g : Fin n → ℝ) : (topK g k).length = k := by
  unfold topK
  rw [List.length_take, List.length_mergeSort, List.length_finRange]
  omega

theorem argsort_length {n : ℕ} (g : Fin n → ℝ) : (argsort g).length = n := by
  unfold argsort
  rw [List.length_mergeSort, List.length_finRange]

/-- `math_util.py:83` `top_k` as an array of length `k` (`k > n` is an error in JAX). -/
noncomputable def topKArr {n k : ℕ} (hk : k ≤ n) (g : Fin n → ℝ) (i : Fin k) : Fin n :=
  (topK g k)[(i : ℕ)]'(by rw [topK_length hk]; exact i.2)

/-- `jnp.argsort` as an array. -/
noncomputable def argsortArr {n : ℕ} (g : Fin n → ℝ) (i : Fin n) : Fin n :=
  (argsort g)[(i : ℕ)]'(by rw [argsort_length]; exact i.2)

/-- `math_util.py:82`, `120`: the perturbed scores. -/
noncomputable def perturbed (lp e : Fin D → ℝ) : Fin D → ℝ := fun j => gumbel (lp j) (e j)

/-- `path_auxiliary.py:14-33` `step`, binary, fixed number of flips, from the noise `e`. -/
noncomputable def pafsBinaryNoiseStep {B k : ℕ} (hk : k ≤ D) (tiny : ℝ) (calls : ℕ) (h : ℝ → ℝ)
    (f : (Fin D → ℤ) → ℝ) (lr : (Fin D → ℤ) → Fin D → ℝ) (mask : Option (Fin B → Fin D → ℝ))
    (x : Fin B → Fin D → ℤ) (e : Fin B → Fin D → ℝ) (u : Fin B → ℝ) (s : LBState) :
    (Fin B → Fin D → ℤ) × LBState × ℝ :=
  pafsBinaryStep tiny calls h f lr mask x
    (fun b => topKArr hk (perturbed (pafsLogProb h lr (mask.map (· b)) (x b)) (e b))) u s

/-- `jnp.zeros_like(a).at[idx].set(a)`, one row (`math_util.py:140-144`): entries are written one after another. -/
noncomputable def scatterSet (idx : Fin D → Fin D) (a : Fin D → ℝ) : Fin D → ℝ :=
  (List.finRange D).foldl (fun acc i => Function.update acc (idx i) (a i)) fun _ => 0

open Classical in
/-- `math_util.py:134-146`: the log-likelihoods of all sites, best perturbed score first, renormalised,
scattered back and masked. -/
noncomputable def pafsLlSelG (lp g : Fin D → ℝ) (mask : Fin D → Prop) (j : Fin D) : ℝ :=
  let sortedIdx : Fin D → Fin D := topKArr le_rfl g
  let idxLl : Fin D → ℝ := fun i => (renormalize (fun i => ((lp (sortedIdx i) : ℝ) : WithBot ℝ)) i).unbotD 0
  scatterSet sortedIdx idxLl j * (if mask j then 1 else 0)

open Classical in
/-- `path_auxiliary.py:147-157`: backward log-likelihood from the mask and the perturbed scores. -/
noncomputable def pafsLlBackG (lp g : Fin D → ℝ) (mask : Fin D → Prop) : ℝ :=
  let backIdx : Fin D → Fin D := argsortArr g
  let masked : Fin D → WithBot ℝ := fun j => if mask j then ((lp j : ℝ) : WithBot ℝ) else ⊥
  ∑ i, if mask (backIdx i) then (renormalize (fun i => masked (backIdx i)) i).unbotD 0 else 0

open Classical in
/-- `path_auxiliary.py:14-33` `step`, binary, adaptive, from the noise `e`.  The mask comes from the
threshold on the perturbed scores (`math_util.py:121-125`; `numFlips` is in the range where it exists). -/
noncomputable def pafsAdaptiveNoiseStep {B : ℕ} (target tiny : ℝ) (calls : ℕ) (h : ℝ → ℝ)
    (f : (Fin D → ℤ) → ℝ) (lr : (Fin D → ℤ) → Fin D → ℝ) (mask : Option (Fin B → Fin D → ℝ))
    (x : Fin B → Fin D → ℤ) (e : Fin B → Fin D → ℝ) (u : Fin B → ℝ) (s : LBState) :
    (Fin B → Fin D → ℤ) × LBState × ℝ :=
  let ns := numFlips D s.radius
  let g := fun b => perturbed (pafsLogProb h lr (mask.map (· b)) (x b)) (e b)
  let sel : Fin B → Fin D → Prop := fun b => (selectedMask (g b) ns).getD fun _ => False
  let y := fun b => maskFlip (x b) fun j => decide (sel b j)
  let llX2y := fun b => ∑ j, pafsLlSelG (pafsLogProb h lr (mask.map (· b)) (x b)) (g b) (sel b) j
  let llY2x := fun b => pafsLlBackG (pafsLogProb h lr (mask.map (· b)) (y b)) (g b) (sel b)
  let logAcc := fun b => f (y b) + llY2x b - f (x b) - llX2y b
  let r := lbSelectBinary tiny u logAcc x y s
  (r.1, pafsSelectState true target D calls logAcc s, meanB fun b => clipMax (Real.exp (logAcc b)) 1)

/-- Transition probabilities of one chain from uniform noise, fixed number of flips. -/
noncomputable def pafsBinaryNoiseKernel {k : ℕ} (hk : k ≤ D) (tiny : ℝ) (h : ℝ → ℝ) (f : (Fin D → ℤ) → ℝ)
    (lr : (Fin D → ℤ) → Fin D → ℝ) (mask : Option (Fin D → ℝ)) (s : LBState) (x y : Fin D → ℤ) : ℝ :=
  Spec.noiseLaw (fun e u => (pafsBinaryNoiseStep hk tiny 4 h f lr (mask.map fun m (_ : Fin 1) => m)
    (fun _ => x) (fun _ => e) (fun _ => u) s).1 0) y

/-- Transition probabilities of one chain from uniform noise, adaptive. -/
noncomputable def pafsAdaptiveNoiseKernel (target tiny : ℝ) (h : ℝ → ℝ) (f : (Fin D → ℤ) → ℝ)
    (lr : (Fin D → ℤ) → Fin D → ℝ) (mask : Option (Fin D → ℝ)) (s : LBState) (x y : Fin D → ℤ) : ℝ :=
  Spec.noiseLaw (fun e u => (pafsAdaptiveNoiseStep target tiny 4 h f lr (mask.map fun m (_ : Fin 1) => m)
    (fun _ => x) (fun _ => e) (fun _ => u) s).1 0) y

end Discs
