import Verif.Model.Float32
import Verif.Model.DState
import Verif.Model.GridCateg

/-!
# Model of the locally balanced samplers in single precision

As in `Model/Float32.lean`: every operation is followed by a rounding `rd`, reductions are described by `Spec.SumF`, the library
logarithm is an arbitrary `lg`.  What the samplers compute before drawing (gradients, weights, step sizes, `exp`, `log_softmax`)
is not described operation by operation: the tables of flip probabilities and of log-probabilities are arbitrary.  Gumbel
noise is transformed exactly, from noise on a grid (`Model/GridCateg.lean`).
-/

namespace Discs

open Spec

/-- `log_acc = ll_y + ll_y2x - ll_x - ll_x2y` (`gwg.py:35`, `path_auxiliary.py:27`, `dmala.py:112`, `dlmc.py:109`). -/
def lbLogAccF (rd : ℝ → ℝ) (llY llY2x llX llX2y : ℝ) : ℝ := rd (rd (rd (llY + llY2x) - llX) - llX2y)

/-- The sample after one step (`gwg.py:22-39`, `path_auxiliary.py:15-33`, `dmala.py:84-117`, `dlmc.py:81-114`), one chain.  `ω` are
the draws and `move x ω` is the proposal; `F₁`, `F₂` are the two energy evaluations (at the sample and at the proposal), `Lf` and
`Lr` the two computed log-probabilities of the draws. -/
noncomputable def lbStepF {X Ω : Type*} (rd lg : ℝ → ℝ) (F₁ F₂ : X → ℝ) (Lf Lr : X → Ω → ℝ) (move : X → Ω → X) (x : X) (ω : Ω)
    (u : ℝ) : X :=
  mhStepF rd lg (fun _ : Fin 1 => u) (fun _ => lbLogAccF rd (F₂ (move x ω)) (Lr x ω) (F₁ x) (Lf x ω)) (fun _ => x)
    (fun _ => move x ω) 0

/-- Transition probabilities of one chain whose draws have law `q x`. -/
noncomputable def lbKernelF {X Ω : Type*} [Fintype Ω] (M : ℕ) (rd lg : ℝ → ℝ) (q : X → Ω → ℝ) (F₁ F₂ : X → ℝ)
    (Lf Lr : X → Ω → ℝ) (move : X → Ω → X) (x y : X) : ℝ :=
  lawG M (q x) (lbStepF rd lg F₁ F₂ Lf Lr move x) y

/-- One entry of the sum in `get_ll_onestep` of binary DMALA and DLMC (`dmala.py:135-139`, `dlmc.py:139-143`):
`log(dist + 1e-32) * aux + log(1 - dist + 1e-32) * (1 - aux)`. -/
noncomputable def flipTermF (rd lg : ℝ → ℝ) (p : ℝ) (flip : Bool) : ℝ :=
  let aux : ℝ := if flip then 1 else 0
  rd (rd (lg (rd (p + rd llEps)) * aux) + rd (lg (rd (rd (1 - p) + rd llEps)) * rd (1 - aux)))

/-- `get_ll_onestep` of binary DMALA and DLMC (`dmala.py:135-139`, `dlmc.py:139-143`), one row. -/
def FlipLlF (rd lg : ℝ → ℝ) {D : ℕ} (p : Fin D → ℝ) (flip : Fin D → Bool) (r : ℝ) : Prop :=
  SumF rd (List.ofFn fun j => flipTermF rd lg (p j) (flip j)) r

open Classical in
/-- Probability that `jax.random.bernoulli` (`dmala.py:131`, `dlmc.py:135`) returns true: `uniform < p` with uniform noise on `M`
equally spaced values. -/
noncomputable def bernoulliG (M : ℕ) (p : ℝ) : ℝ := (((Finset.range M).filter fun k : ℕ => (k : ℝ) / M < p).card : ℝ) / M

/-- `get_ll_onestep` of binary GWG (`gwg.py:49-54`), one row: the sum of the gathered log-probabilities. -/
def GwgLlF (rd : ℝ → ℝ) {D k : ℕ} (dist : Fin D → ℝ) (idx : Fin k → Fin D) (r : ℝ) : Prop :=
  SumF rd (List.ofFn fun i => dist (idx i)) r

/-- Law of the indices drawn by binary GWG (`gwg.py:65-77`, `math_util.py:76-80`): independent categorical draws with logits
`dist`, from noise of `M` values. -/
noncomputable def gwgDrawLawG {D k : ℕ} (M : ℕ) (dist : Fin D → ℝ) (idx : Fin k → Fin D) : ℝ := ∏ i, categoricalG M dist (idx i)

/-- `get_ll_onestep` of categorical DMALA and DLMC (`dmala.py:157-160`, `dlmc.py:179-182`), one row: `sum(dist_ll * aux)`, with
`dist_ll` the computed `log_softmax` and `aux` one-hot. -/
def CategLlF (rd : ℝ → ℝ) {D C : ℕ} (distLl aux : Fin D → Fin C → ℝ) (r : ℝ) : Prop :=
  SumF rd (List.ofFn fun i : Fin (D * C) => rd (distLl i.divNat i.modNat * aux i.divNat i.modNat)) r

/-- Law of the categories drawn by categorical DMALA and DLMC (`dmala.py:152-155`, `dlmc.py:174-177`), from noise of `M` values. -/
noncomputable def categLawG {D C : ℕ} (M : ℕ) (dist : Fin D → Fin C → ℝ) (v : Fin D → Fin C) : ℝ :=
  ∏ j, categoricalG M (dist j) (v j)

end Discs
