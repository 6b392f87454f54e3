import Verif.Model.DState

/-!
# Model of `discs/models/rbm.py` and of `RBMBlockGibbsSampler` (`discs/samplers/blockgibbs.py:74-85`)

Arrays are functions on `Fin`, numbers are exact reals.  Samples are integer valued; a boolean array
returned by `jax.random.bernoulli` is used by the following arithmetic as 0/1 (`boolVal`).
`glorot_uniform` initialisation of the weights is not modelled: the weights are arbitrary.
-/

namespace Discs

open Finset

/-- `jax.nn.softplus`. -/
noncomputable def softplus (z : ℝ) : ℝ := Real.log (1 + Real.exp z)

/-- Value of a boolean array element in arithmetic. -/
def boolVal (b : Bool) : ℝ := if b then 1 else 0

/-- Parameters of `NNBinary` (`rbm.py:31-40`): `b_v`, `b_h`, `w[visible, hidden]`. -/
structure RBMParams (V H : ℕ) where
  bv : Fin V → ℝ
  bh : Fin H → ℝ
  w : Fin V → Fin H → ℝ

/-- `v @ self.w + self.b_h` (`rbm.py:51`, `rbm.py:56`). -/
def rbmLogitsH {V H : ℕ} (P : RBMParams V H) (v : Fin V → ℝ) (j : Fin H) : ℝ :=
  (∑ i, v i * P.w i j) + P.bh j

/-- `h @ self.w.T + self.b_v` (`rbm.py:60`). -/
def rbmLogitsV {V H : ℕ} (P : RBMParams V H) (h : Fin H → ℝ) (i : Fin V) : ℝ :=
  (∑ j, h j * P.w i j) + P.bv i

/-- `NNBinary.__call__` (`rbm.py:42-53`) on one sample. -/
noncomputable def rbmForward {V H : ℕ} (P : RBMParams V H) (v : Fin V → ℝ) : ℝ :=
  (∑ j, softplus (rbmLogitsH P v j)) + ∑ i, v i * P.bv i

/-- Success probabilities handed to `bernoulli` by `step_h` (`rbm.py:55-57`). -/
noncomputable def rbmProbH {V H : ℕ} (P : RBMParams V H) (v : Fin V → ℝ) (j : Fin H) : ℝ :=
  sigmoid (rbmLogitsH P v j)

/-- Success probabilities handed to `bernoulli` by `step_v` (`rbm.py:59-61`). -/
noncomputable def rbmProbV {V H : ℕ} (P : RBMParams V H) (h : Fin H → ℝ) (i : Fin V) : ℝ :=
  sigmoid (rbmLogitsV P h i)

/-- `bv_init` of `NNBinary.setup` (`rbm.py:25-30`): zeros, or the log-odds of the data mean. -/
noncomputable def rbmInitBv {V : ℕ} : Option (Fin V → ℝ) → Fin V → ℝ
  | none => fun _ => 0
  | some mean => fun i => Real.log (mean i / (1 - mean i))

/-- Parameters of `NNCategorical` (`rbm.py:79-92`): `b_v[visible, category]`, `b_h`,
`w[hidden, visible, category]`. -/
structure CRBMParams (V H C : ℕ) where
  bv : Fin V → Fin C → ℝ
  bh : Fin H → ℝ
  w : Fin H → Fin V → Fin C → ℝ

/-- `NNCategorical.__call__` (`rbm.py:94-102`) on one one-hot encoded sample. -/
noncomputable def crbmNet {V H C : ℕ} (P : CRBMParams V H C) (v : Fin V → Fin C → ℝ) : ℝ :=
  (∑ j, softplus ((∑ i, ∑ c, v i c * P.w j i c) + P.bh j)) + ∑ i, ∑ c, v i c * P.bv i c

/-- `RBM.forward` (`rbm.py:135-138`) of the categorical model on an integer sample: one-hot, then
the network. -/
noncomputable def crbmForward {V H C : ℕ} (P : CRBMParams V H C) (x : Fin V → ℤ) : ℝ :=
  crbmNet P fun i => oneHot C (x i)

/-- `RBMBlockGibbsSampler.step` (`blockgibbs.py:81-85`) on a batch of `B` chains.  `h` and `v` are
the results of the two `bernoulli` calls; the returned sample is the second one, the state is
returned unchanged and, unlike every other sampler, there is no acceptance rate. -/
def rbmStep {B V : ℕ} {H : ℕ} {σ : Type*} (_x : Fin B → Fin V → ℤ) (_h : Fin B → Fin H → Bool)
    (v : Fin B → Fin V → Bool) (state : σ) : (Fin B → Fin V → ℤ) × σ :=
  (fun b i => if v b i then 1 else 0, state)

/-- `RBMBlockGibbsSampler.make_init_state` (`blockgibbs.py:77-79`). -/
def rbmInitState : Fin 1 → ℤ := fun _ => 1

/-- Law of the two draws of one step from the sample `x`: first `h` given `x`, then `v` given `h`. -/
noncomputable def rbmDrawLaw {V H : ℕ} (P : RBMParams V H) (x : Fin V → ℤ)
    (d : (Fin H → Bool) × (Fin V → Bool)) : ℝ :=
  flipLaw (rbmProbH P fun i => (x i : ℝ)) d.1 * flipLaw (rbmProbV P fun j => boolVal (d.1 j)) d.2

/-- Transition kernel of one chain. -/
noncomputable def rbmKernel {V H : ℕ} (P : RBMParams V H) (x y : Fin V → ℤ) : ℝ :=
  Spec.law (rbmDrawLaw P x)
    (fun d => (rbmStep (fun _ : Fin 1 => x) (fun _ => d.1) (fun _ => d.2) rbmInitState).1 0) y

end Discs
