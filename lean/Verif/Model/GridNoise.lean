import Verif.Spec.Grid
import Verif.Model.RandomWalk
import Verif.Model.GWG
import Verif.Model.PathAux
import Verif.Model.DMALA
import Verif.Model.DLMC

/-!
# The Metropolis–Hastings samplers with acceptance noise of finite precision

`math_util.py:152-154` draws the acceptance noise by `jax.random.uniform` in single precision: one of `M = 2 ^ 23` equally
spaced numbers.  The kernels below are those of the sampler modules with this noise in place of a real number; the other
draws stay ideal.  The addition of `1e-24` and the logarithm are exact.
-/

namespace Discs

/-- Number of values of `jax.random.uniform` in single precision (23 bits of mantissa). -/
def noiseSize : ℕ := 2 ^ 23

/-- `rwKernel` with noise of finite precision. -/
noncomputable def rwKernelG {D : ℕ} (M : ℕ) (adaptive : Bool) (target tiny : ℝ) (f : (Fin D → ℤ) → ℝ) (C : ℕ)
    (s : RWState) (x y : Fin D → ℤ) : ℝ :=
  Spec.lawG M (rwDrawLaw C D s.radius) (fun d u =>
    (rwStep adaptive target tiny f C (fun _ : Fin 1 => x) (fun _ => d) (fun _ => u) s).1 0) y

/-- `gwgBinaryKernel` with noise of finite precision. -/
noncomputable def gwgBinaryKernelG {D : ℕ} (M : ℕ) (k : ℕ) (tiny : ℝ) (h : ℝ → ℝ) (f : (Fin D → ℤ) → ℝ)
    (g : (Fin D → ℤ) → Fin D → ℝ) (mask : Option (Fin D → ℝ)) (s : LBState) (x y : Fin D → ℤ) : ℝ :=
  Spec.lawG M (gwgDrawLaw (k := k) h g mask x) (fun idx u =>
    (gwgBinaryStep tiny h f g (mask.map fun m (_ : Fin 1) => m) (fun _ : Fin 1 => x)
      (fun _ => idx) (fun _ => u) s).1 0) y

/-- `gwgAdaptiveKernel` with noise of finite precision. -/
noncomputable def gwgAdaptiveKernelG {D : ℕ} (M : ℕ) (hD : 0 < D) (target tiny : ℝ) (h : ℝ → ℝ)
    (f : (Fin D → ℤ) → ℝ) (g : (Fin D → ℤ) → Fin D → ℝ) (mask : Option (Fin D → ℝ)) (s : LBState)
    (x y : Fin D → ℤ) : ℝ :=
  Spec.lawG M (gwgDrawLaw (k := numFlips D s.radius) h g mask x) (fun idx u =>
    (gwgAdaptiveStep hD target tiny h f g (mask.map fun m (_ : Fin 1) => m) (fun _ : Fin 1 => x) s
      (fun _ => idx) (fun _ => u)).1 0) y

/-- `cgwgKernel` with noise of finite precision. -/
noncomputable def cgwgKernelG {D : ℕ} (M : ℕ) (tiny : ℝ) (h : ℝ → ℝ) (C : ℕ)
    (f : (Fin D → Fin C → ℝ) → ℝ) (g : (Fin D → Fin C → ℝ) → Fin D → Fin C → ℝ) (s : LBState)
    (x y : Fin D → ℤ) : ℝ :=
  Spec.lawG M (softmax (cgwgDist h (oneHotRow C x) (g (oneHotRow C x)))) (fun n u =>
    (cgwgStep tiny h C f g (fun _ : Fin 1 => x) (fun _ => n) (fun _ => u) s).1 0) y

/-- `pafsBinaryKernel` with noise of finite precision. -/
noncomputable def pafsBinaryKernelG {D : ℕ} (M : ℕ) (k : ℕ) (tiny : ℝ) (h : ℝ → ℝ) (f : (Fin D → ℤ) → ℝ)
    (lr : (Fin D → ℤ) → Fin D → ℝ) (mask : Option (Fin D → ℝ)) (s : LBState) (x y : Fin D → ℤ) : ℝ :=
  Spec.lawG M (pafsIdxLaw (pafsLogProb h lr mask x)) (fun (idx : Fin k → Fin D) u =>
    (pafsBinaryStep tiny 4 h f lr (mask.map fun m (_ : Fin 1) => m) (fun _ => x) (fun _ => idx)
      (fun _ => u) s).1 0) y

/-- `pafsAdaptiveKernel` with noise of finite precision. -/
noncomputable def pafsAdaptiveKernelG {D : ℕ} (M : ℕ) (target tiny : ℝ) (h : ℝ → ℝ) (f : (Fin D → ℤ) → ℝ)
    (lr : (Fin D → ℤ) → Fin D → ℝ) (mask : Option (Fin D → ℝ)) (s : LBState) (x y : Fin D → ℤ) : ℝ :=
  Spec.lawG M (pafsOrderLaw (pafsLogProb h lr mask x)) (fun σ u =>
    (pafsAdaptiveStep target tiny 4 h f lr (mask.map fun m (_ : Fin 1) => m) (fun _ => x) (fun _ => σ)
      (fun _ => u) s).1 0) y

/-- `pafsCategAdaptiveKernel` with noise of finite precision. -/
noncomputable def pafsCategAdaptiveKernelG {D : ℕ} (M : ℕ) (target tiny : ℝ) (h : ℝ → ℝ) (C : ℕ)
    (f : (Fin D → Fin C → ℝ) → ℝ) (lr : (Fin D → Fin C → ℝ) → Fin D → Fin C → ℝ)
    (mask : Option (Fin D → ℝ)) (s : LBState) (x y : Fin D → ℤ) : ℝ :=
  Spec.lawG M (pafsCategAdaptiveLaw (pafsCategLogProb h lr mask (oneHotRow C x))) (fun w u =>
    (pafsCategAdaptiveStep target tiny 4 h C f lr (mask.map fun m (_ : Fin 1) => m) (fun _ => x)
      (fun _ => w.1) (fun _ => w.2) (fun _ => u) s).1 0) y

/-- `dmalaBinaryKernel` with noise of finite precision. -/
noncomputable def dmalaBinaryKernelG {D : ℕ} (M : ℕ) (c : DCfg) (tiny eps : ℝ) (h : ℝ → ℝ)
    (f : (Fin D → ℤ) → ℝ) (g : (Fin D → ℤ) → Fin D → ℝ) (s : DState) (x y : Fin D → ℤ) : ℝ :=
  Spec.lawG M (dmalaFlipLaw c h g s x) (fun flip u =>
    (dmalaBinaryStep c tiny eps h f g (fun _ : Fin 1 => x) (fun _ => flip) (fun _ => u) s).1 0) y

/-- `dmalaCategKernel` with noise of finite precision. -/
noncomputable def dmalaCategKernelG {D : ℕ} (M : ℕ) (c : DCfg) (tiny : ℝ) (h : ℝ → ℝ) (C : ℕ)
    (f : (Fin D → Fin C → ℝ) → ℝ) (g : (Fin D → Fin C → ℝ) → Fin D → Fin C → ℝ) (s : DState)
    (x y : Fin D → ℤ) : ℝ :=
  Spec.lawG M (dmalaCategLaw c h g s (oneHotRow C x)) (fun v u =>
    (dmalaCategStep c tiny h C f g (fun _ : Fin 1 => x) (fun _ => v) (fun _ => u) s).1 0) y

/-- `dlmcBinaryKernel` with noise of finite precision. -/
noncomputable def dlmcBinaryKernelG {D : ℕ} (M : ℕ) (c : DCfg) (tiny eps : ℝ) (h : ℝ → ℝ)
    (f : (Fin D → ℤ) → ℝ) (g : (Fin D → ℤ) → Fin D → ℝ) (s : DState) (x y : Fin D → ℤ) : ℝ :=
  Spec.lawG M (dlmcFlipLaw c h g s x) (fun flip u =>
    (((dlmcBinaryStep c tiny eps h f g (fun _ : Fin 1 => x) (fun _ => flip) (fun _ => u) s).toOption).map
      fun r => r.1 0)) (some y)

/-- `dlmcCategKernel` with noise of finite precision. -/
noncomputable def dlmcCategKernelG {D : ℕ} (M : ℕ) (c : DCfg) (tiny : ℝ) (h : ℝ → ℝ) (C : ℕ)
    (f : (Fin D → Fin C → ℝ) → ℝ) (g : (Fin D → Fin C → ℝ) → Fin D → Fin C → ℝ) (s : DState)
    (x y : Fin D → ℤ) : ℝ :=
  Spec.lawG M (dlmcCategLaw c h g s (oneHotRow C x)) (fun v u =>
    (((dlmcCategStep c tiny h C f g (fun _ : Fin 1 => x) (fun _ => v) (fun _ => u) s).toOption).map
      fun r => r.1 0)) (some y)

end Discs
