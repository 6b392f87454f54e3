import Verif.Model.Build
import Verif.Model.Factorized
import Verif.Model.Lattice
import Verif.Model.FHMM
import Verif.Model.RBM
import Verif.Model.Comb
import Verif.Model.Experiment
import Mathlib.Analysis.Calculus.Deriv.Basic

/-!
# What the samplers see of the models

`ModelIface` for the models of `discs/models`, one batch row.  The samplers work on the flattened sample; a
model with a two-dimensional sample reads it row by row.
-/

namespace Discs

/-- `jax.value_and_grad` of a function of the sites: partial derivatives. -/
noncomputable def gradAt {D : ℕ} (F : (Fin D → ℝ) → ℝ) (x : Fin D → ℝ) (j : Fin D) : ℝ :=
  deriv (fun t => F (Function.update x j t)) (x j)

/-- The same for one-hot samples. -/
noncomputable def gradAtHot {D C : ℕ} (F : (Fin D → Fin C → ℝ) → ℝ) (x : Fin D → Fin C → ℝ) (j : Fin D)
    (c : Fin C) : ℝ :=
  deriv (fun t => F (Function.update x j (Function.update (x j) c t))) (x j c)

/-- Row-major reading of a flat sample as an `H × W` array. -/
def unflat {α : Type*} {H W : ℕ} (x : Fin (H * W) → α) : Fin H → Fin W → α :=
  fun r c => x (finProdFinEquiv (r, c))

/-- A model for binary samples: `fInt` is `forward` on the int32 array, `F` on floats; `get_value_and_grad`
casts to float32 first (`bernoulli.py:39-47`, `ising.py:69-77`, `fhmm.py:34-42`, `rbm.py:140-149`,
`comb_ebm.py:31-39`).  The one-hot fields are not used for two categories. -/
noncomputable def binaryIface {D : ℕ} (fInt : (Fin D → ℤ) → ℝ) (F : (Fin D → ℝ) → ℝ)
    (nb : Option ((Fin D → ℤ) → ℝ × (Fin D → ℝ))) (mask : Option (Fin D → ℝ)) : ModelIface D 2 where
  f := fInt
  val x := F fun j => (x j : ℝ)
  grad x := gradAt F fun j => (x j : ℝ)
  nb := nb
  valHot _ := 0
  gradHot _ _ _ := 0
  nbHot := none
  mask := mask

/-- A model whose `forward` one-hot encodes samples that are not (`categorical.py:37-45`, `potts.py:59-62`,
`rbm.py:135-138`, `fhmm.py:166-168`, `normcut.py:57-59`).  `jax.nn.one_hot` compares with the categories,
so that the derivative of the encoded sample is zero.  For samples that are not encoded (two categories) the
assertion on the shape of the log-ratios (`path_auxiliary.py:81`) fails. -/
noncomputable def oneHotIface {D C : ℕ} (F : (Fin D → Fin C → ℝ) → ℝ)
    (nbHot : Option ((Fin D → Fin C → ℝ) → ℝ × (Fin D → Fin C → ℝ))) (mask : Option (Fin D → ℝ)) :
    ModelIface D C where
  f x := F (oneHotRow C x)
  val x := F (oneHotRow C x)
  grad _ _ := 0
  nb := none
  valHot := F
  gradHot := gradAtHot F
  nbHot := nbHot
  mask := mask

/-! ### The models -/

/-- `Bernoulli`; `logratio_in_neighborhood` returns three values (`bernoulli.py:57-61`). -/
noncomputable def bernIface {D : ℕ} (p : Fin D → ℝ) : ModelIface D 2 :=
  binaryIface (fun x => bernForward p fun j => (x j : ℝ)) (bernForward p) none none

/-- `Ising` (`ising.py:46-77`): on the int32 array the messages are truncated. -/
noncomputable def isingIface {H W : ℕ} (wh wv wb : Grid H W) : ModelIface (H * W) 2 :=
  binaryIface (fun x => isingForwardInt wh wv wb (unflat x)) (fun x => isingForward wh wv wb (unflat x)) none
    none

/-- `BinaryFHMM` (`fhmm.py:73-89`). -/
noncomputable def fhmmIface {n K : ℕ} (alpha beta sigma : ℝ) (w : Fin K → ℝ) (b : ℝ) (y : Fin (n + 1) → ℝ) :
    ModelIface ((n + 1) * K) 2 :=
  binaryIface (fun x => fhmmForward alpha beta sigma w b y fun t k => ((unflat x t k : ℤ) : ℝ))
    (fun x => fhmmForward alpha beta sigma w b y (unflat x)) none none

/-- `BinaryRBM` (`rbm.py:135-149`). -/
noncomputable def rbmIface {V H : ℕ} (P : RBMParams V H) : ModelIface V 2 :=
  binaryIface (fun x => rbmForward P fun i => (x i : ℝ)) (rbmForward P) none none

/-- `Categorical`. -/
noncomputable def categIface {D C : ℕ} (p : Fin D → Fin C → ℝ) : ModelIface D C :=
  oneHotIface (categNet p) none none

/-- `Potts`. -/
noncomputable def pottsIface {H W C : ℕ} (wh wv wb : Fin H → Fin W → Fin C → ℝ) : ModelIface (H * W) C :=
  oneHotIface (fun x => pottsNet wh wv wb (unflat x)) none none

/-- `CategFHMM` (`fhmm.py:160-187`) if the number of chains differs from the number of categories
(otherwise `cfhmmRows`). -/
noncomputable def cfhmmIface {n K C : ℕ} (alphaLogits : Fin C → ℝ) (logBeta : Fin C → Fin C → ℝ) (sigma : ℝ)
    (w : Fin K → Fin C → ℝ) (b : ℝ) (y : Fin (n + 1) → ℝ) : ModelIface ((n + 1) * K) C :=
  oneHotIface (fun x => cfhmmForward alphaLogits logBeta sigma w b y (unflat x)) none none

/-- `CategoricalRBM`. -/
noncomputable def crbmIface {V H C : ℕ} (P : CRBMParams V H C) : ModelIface V C :=
  oneHotIface (crbmNet P) none none

/-- `Maxcut` (`maxcut.py:29-59`); `logratio_in_neighborhood` returns four values.  `forward` casts to float
(`comb_ebm.py:27`). -/
noncomputable def maxcutIface {N m : ℕ} (A : EdgeArrays N m) (temperature : ℝ) (mask : Option (Fin (N + 1) → ℝ)) :
    ModelIface (N + 1) 2 :=
  binaryIface (fun x => combForward (maxcutObjective A) noPenalty temperature fun v => (x v : ℝ))
    (combForward (maxcutObjective A) noPenalty temperature)
    (some fun x => (maxcutCutWeight A temperature fun v => (x v : ℝ),
      maxcutLogratio A temperature fun v => (x v : ℝ))) mask

/-- `MIS`; `logratio_in_neighborhood` returns three values (`mis.py:42-55`). -/
noncomputable def misIface {N m : ℕ} (A : EdgeArrays N m) (nodes : Fin (N + 1) → ℝ) (coeff temperature : ℝ)
    (mask : Option (Fin (N + 1) → ℝ)) : ModelIface (N + 1) 2 :=
  binaryIface
    (fun x => combForward (misObjective nodes) (misPenalty A nodes coeff) temperature fun v => (x v : ℝ))
    (combForward (misObjective nodes) (misPenalty A nodes coeff) temperature) none mask

/-- `MaxClique` (`maxclique.py:24-41`). -/
noncomputable def cliqueIface {N m : ℕ} (A : EdgeArrays N m) (nodes : Fin (N + 1) → ℝ) (coeff temperature : ℝ)
    (mask : Option (Fin (N + 1) → ℝ)) : ModelIface (N + 1) 2 :=
  binaryIface
    (fun x => combForward (misObjective nodes) (cliquePenalty A nodes coeff) temperature fun v => (x v : ℝ))
    (combForward (misObjective nodes) (cliquePenalty A nodes coeff) temperature) none mask

/-- `NormCut` (`normcut.py:57-117`); `logratio_in_neighborhood` casts the one-hot array to int32. -/
noncomputable def ncIface {N m C : ℕ} (cfg : NCConfig) (A : EdgeArrays N m) (deg : Fin (N + 1) → ℝ)
    (temperature : ℝ) (mask : Option (Fin (N + 1) → ℝ)) : ModelIface (N + 1) C :=
  oneHotIface (ncForward cfg A deg temperature)
    (some fun x => (ncCurObj cfg.eps A deg temperature fun v c => ⌊x v c⌋,
      ncLogratio cfg.eps A deg temperature fun v c => ⌊x v c⌋)) mask

/-- `ImageEBM.forward` (`resnet.py:111-123`) on a float image. -/
noncomputable def imageFloat {D : ℕ} (eps : ℝ) (mean : Option (Fin D → ℝ)) (net : (Fin D → ℝ) → ℝ) (beta : Option ℝ)
    (x : Fin D → ℝ) : ℝ :=
  match mean with
  | none => net x
  | some m =>
    let base := ∑ i, (x i * Real.log (m i + eps) + (1 - x i) * Real.log (1 + (- m i + eps)))
    let energy := net x + base
    match beta with
    | none => energy
    | some β => base * (1 - β) + energy * β

/-- `BinaryImageEBM` (`resnet.py:111-136`), any network: flax computes in float32 whatever the type of the image, and
`get_value_and_grad` casts first. -/
noncomputable def imageIface {D : ℕ} (eps : ℝ) (mean : Option (Fin D → ℝ)) (net : (Fin D → ℝ) → ℝ)
    (beta : Option ℝ) : ModelIface D 2 :=
  binaryIface (imageForward eps mean (fun x => net fun j => (x j : ℝ)) beta) (imageFloat eps mean net beta) none none

end Discs
