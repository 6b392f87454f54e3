import Verif.Model.DState
import Verif.Model.DMALA
import Verif.Spec.Markov
import Mathlib.Logic.Equiv.Fin.Basic
import Mathlib.Data.Fintype.Perm

/-!
# Initial samples

Law of one row of `get_init_samples` of every model (the text model is in `Model/TextInfill.lean`).  Sites are numbered
from `0` to `D - 1`.  The draws of `randint`, `bernoulli`, `categorical` and `shuffle` are ideal and independent.
-/

namespace Discs

open Finset

/-- `randint(minval=0, maxval=C)` (`bernoulli.py:23-31` with `C = 2`, `categorical.py:26-35`, `potts.py:49-57`,
`text_infilling.py:79-87`). -/
noncomputable def initRandint (C D : ℕ) : (Fin D → ℤ) → ℝ :=
  Spec.law (fun _ : Fin D → Fin C => ∏ _j : Fin D, 1 / (C : ℝ)) categRow

/-- `bernoulli(p).astype(int32)`, with `p` per site. -/
noncomputable def initBernoulli {D : ℕ} (p : Fin D → ℝ) : (Fin D → ℤ) → ℝ :=
  Spec.law (flipLaw p) fun v j => if v j then 1 else 0

/-- `get_init_samples` with `bernoulli` at its default `p = 0.5` or given `p=0.5` (`ising.py:39-44`, `fhmm.py:66-71`,
`comb_ebm.py:48-51`, `maxcut.py:24-27`). -/
noncomputable def initHalf (D : ℕ) : (Fin D → ℤ) → ℝ := initBernoulli fun _ => 0.5

/-- `BinaryRBM` and `BinaryImageEBM` (`rbm.py:123-126, 173-179`, `resnet.py:99-102, 146-152`): the mean of the data if the
loaded parameters have it. -/
noncomputable def initDataMean {D : ℕ} (dataMean : Option (Fin D → ℝ)) : (Fin D → ℤ) → ℝ :=
  initBernoulli (match dataMean with
    | none => fun _ => 0.5
    | some m => m)

/-- `categorical(logits=log(w))`: a weight zero has logit `-inf`, which is never drawn. -/
noncomputable def categLogLaw {D C : ℕ} (w : Fin D → Fin C → ℝ) (v : Fin D → Fin C) : ℝ :=
  ∏ j, (if w j (v j) = 0 then 0 else Real.exp (Real.log (w j (v j)))) /
    ∑ c, if w j c = 0 then 0 else Real.exp (Real.log (w j c))

/-- `CategFHMM.get_init_samples` (`fhmm.py:104-111`). -/
noncomputable def initFhmmCateg (C D : ℕ) : (Fin D → ℤ) → ℝ := Spec.law (categLogLaw fun (_ : Fin D) (_ : Fin C) => 1) categRow

/-- `CategoricalRBM` (`rbm.py:123-126, 193-203`).  Without the mean of the data the constructor evaluates
`jnp.ones(num_visible, num_categories)`, whose second argument is the data type: a `TypeError` (`none`). -/
noncomputable def initCategRbm {D C : ℕ} : Option (Fin D → Fin C → ℝ) → Option ((Fin D → ℤ) → ℝ)
  | none => none
  | some m => some (Spec.law (categLogLaw m) categRow)

/-- The row before shuffling in `NormCut.get_init_samples` (`normcut.py:36-41`): `arange(C)` and `m` further labels. -/
def ncJoint {C m : ℕ} (more : Fin m → Fin C) (i : Fin (C + m)) : ℤ :=
  Fin.addCases (fun c : Fin C => ((c : ℕ) : ℤ)) (fun j => ((more j : ℕ) : ℤ)) i

/-- `NormCut.get_init_samples` (`normcut.py:33-43`) with `C + m` nodes (with fewer nodes than categories it raises, see
`ncInitRow`): uniform further labels, uniform shuffle. -/
noncomputable def initNormCut (C m : ℕ) : (Fin (C + m) → ℤ) → ℝ :=
  Spec.law (fun _ : (Fin m → Fin C) × Equiv.Perm (Fin (C + m)) => 1 / ((C : ℝ) ^ m * ((C + m).factorial : ℝ)))
    fun ω j => ncJoint ω.1 (ω.2 j)

end Discs
