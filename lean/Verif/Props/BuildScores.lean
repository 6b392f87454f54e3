import Verif.Props.BuildModel
import Verif.Props.Gradient

/-!
# C111: the scores the gradient samplers compute for a model

With the gradients of `get_value_and_grad` the samplers score a flip (or a new category) of a single site.
For the models that are affine in every site, and for the exact log-ratios of MaxCut, the score is the change of
the log-likelihood.
-/

namespace Discs

open Finset Spec

namespace Spec

/-- Flip one site of a binary sample. -/
def flipOne {D : ℕ} (x : Fin D → ℤ) (j : Fin D) : Fin D → ℤ := Function.update x j (1 - x j)

/-- The scores of all flips of a valid sample are the changes of the energy. -/
def ExactScores {D : ℕ} (M : ModelIface D 2) : Prop :=
  ∀ x ∈ validStates 2 D, ∀ j, deltaBinary M.grad x j = M.val (flipOne x j) - M.val x

/-- The scores of all new categories of a valid sample are the changes of the energy. -/
def ExactScoresHot {D C : ℕ} (M : ModelIface D C) : Prop :=
  ∀ x ∈ validStates C D, ∀ j, ∀ k : Fin C,
    deltaCateg M.gradHot (oneHotRow C x) j k =
      M.valHot (oneHotRow C (Function.update x j ((k : ℕ) : ℤ))) - M.valHot (oneHotRow C x)

end Spec

theorem gradAt_eq {D : ℕ} (F : (Fin D → ℝ) → ℝ) (x : Fin D → ℝ) (j : Fin D) : gradAt F x j = pderiv F x j := rfl

theorem cast_flipOne {D : ℕ} (x : Fin D → ℤ) (j : Fin D) :
    (fun i => (flipOne x j i : ℝ)) = Function.update (fun i => (x i : ℝ)) j (1 - (x j : ℝ)) := by
  funext i
  unfold flipOne Function.update
  split_ifs with h <;> simp

/-- From the score of a real-valued energy to the score the samplers compute. -/
theorem binary_scores {D : ℕ} {F : (Fin D → ℝ) → ℝ} (h : ∀ (x : Fin D → ℝ), (∀ j, x j = 0 ∨ x j = 1) → ∀ j,
      (1 - 2 * x j) * pderiv F x j = F (Function.update x j (1 - x j)) - F x)
    (f : (Fin D → ℤ) → ℝ) (nb : Option ((Fin D → ℤ) → ℝ × (Fin D → ℝ))) (mask : Option (Fin D → ℝ)) :
    ExactScores (binaryIface f F nb mask) := by
  intro x hx j
  have hb : ∀ j, (x j : ℝ) = 0 ∨ (x j : ℝ) = 1 := fun j => by
    rcases valid_binary hx j with h | h <;> simp [h]
  unfold deltaBinary binaryIface
  dsimp only
  rw [cast_flipOne, ← h (fun j => (x j : ℝ)) hb j]
  rfl

/-- **C111 (scores).** -/
theorem bern_scores {D : ℕ} (p : Fin D → ℝ) : ExactScores (bernIface p) :=
  binary_scores (fun x _ j => bern_gradient_exact p x j) _ _ _

theorem update_unflat {α : Type*} {H W : ℕ} (x : Fin (H * W) → α) (p : Fin H × Fin W) (t : α) :
    (fun q : Fin H × Fin W => Function.update x (finProdFinEquiv p) t (finProdFinEquiv q)) =
      Function.update (fun q => x (finProdFinEquiv q)) p t := by
  funext q
  unfold Function.update
  by_cases h : q = p
  · subst h; simp
  · rw [dif_neg h, dif_neg fun hh => h (finProdFinEquiv.injective hh)]

theorem ising_scores {H W : ℕ} (wh wv wb : Grid H W) : ExactScores (isingIface wh wv wb) := by
  refine binary_scores (fun x _ j => ?_) _ _ _
  obtain ⟨p, rfl⟩ := finProdFinEquiv.surjective j
  have h := ising_gradient_exact wh wv wb (fun q => x (finProdFinEquiv q)) p
  have hu : ∀ t, isingForward wh wv wb (unflat (Function.update x (finProdFinEquiv p) t)) =
      isingFlat wh wv wb (Function.update (fun q => x (finProdFinEquiv q)) p t) := fun t => by
    unfold isingFlat
    rw [← update_unflat]
    rfl
  rw [hu]
  refine Eq.trans ?_ h
  unfold pderiv
  simp only [hu]

theorem maxcut_scores {N : ℕ} {es : List (Edge N)} (hl : Loopless es) (padded : ℕ) (T : ℝ)
    (mask : Option (Fin (N + 1) → ℝ)) : ExactScores (maxcutIface (graph2edges es padded) T mask) :=
  binary_scores (fun x _ j => maxcut_gradient_exact hl padded T x j) _ _ _

theorem mis_scores {N : ℕ} {es : List (Edge N)} (hl : Loopless es) (padded : ℕ) (nodes : Fin (N + 1) → ℝ)
    (coeff T : ℝ) (mask : Option (Fin (N + 1) → ℝ)) :
    ExactScores (misIface (graph2edges es padded) nodes coeff T mask) :=
  binary_scores (fun x _ j => mis_gradient_exact hl padded nodes coeff T x j) _ _ _

/-- The scores of MaxClique are all too high by `coeff / (2 T)` on real nodes (C62). -/
theorem clique_scores {N : ℕ} {es : List (Edge N)} (hl : Loopless es) (padded n : ℕ) (coeff T : ℝ)
    (mask : Option (Fin (N + 1) → ℝ)) {x : Fin (N + 1) → ℤ} (hx : x ∈ validStates 2 (N + 1)) (j : Fin (N + 1)) :
    deltaBinary (cliqueIface (graph2edges es padded) (nodeMask n) coeff T mask).grad x j =
      (cliqueIface (graph2edges es padded) (nodeMask n) coeff T mask).val (flipOne x j) -
        (cliqueIface (graph2edges es padded) (nodeMask n) coeff T mask).val x +
        if j.val < n then coeff / (2 * T) else 0 := by
  have hb : IsBinary fun v => (x v : ℝ) := fun v => by rcases valid_binary hx v with h | h <;> simp [h]
  have := clique_gradient_shift hl padded n coeff T hb j
  unfold deltaBinary cliqueIface binaryIface
  dsimp only
  rw [cast_flipOne]
  exact this

/-- **C111 (exact log-ratios of MaxCut).** -/
theorem maxcut_exact_scores {N : ℕ} {es : List (Edge N)} (hl : Loopless es) (padded : ℕ) (T : ℝ)
    (mask : Option (Fin (N + 1) → ℝ)) {x : Fin (N + 1) → ℤ} (hx : x ∈ validStates 2 (N + 1)) (j : Fin (N + 1)) :
    ∃ g, (maxcutIface (graph2edges es padded) T mask).nb = some g ∧
      (g x).2 j = (maxcutIface (graph2edges es padded) T mask).f (flipOne x j) -
        (maxcutIface (graph2edges es padded) T mask).f x := by
  have hb : IsBinary fun v => (x v : ℝ) := fun v => by rcases valid_binary hx v with h | h <;> simp [h]
  refine ⟨_, rfl, ?_⟩
  unfold maxcutIface binaryIface
  dsimp only
  rw [cast_flipOne, (maxcut_logratio_exact es hl padded T hb j).2]
  rfl

/-! ### One-hot models -/

theorem oneHotRow_update {D C : ℕ} (x : Fin D → ℤ) (j : Fin D) (k : Fin C) :
    oneHotRow C (Function.update x j ((k : ℕ) : ℤ)) =
      Function.update (oneHotRow C x) j fun c => if c = k then 1 else 0 := by
  funext i c
  unfold oneHotRow Function.update
  by_cases h : i = j
  · subst h
    simp only [dif_pos]
    unfold oneHot
    by_cases hk : c = k
    · subst hk; simp
    · have : ¬ (k : ℕ) = (c : ℕ) := fun hh => hk (Fin.ext hh.symm)
      have h' : ¬ (c : ℕ) = (k : ℕ) := fun hh => this hh.symm
      simp [hk, h']
  · simp [h]

theorem oneHot_scores {D C : ℕ} {F : (Fin D → Fin C → ℝ) → ℝ}
    (h : ∀ (x : Fin D → Fin C → ℝ) (j : Fin D) (u : Fin C → ℝ),
      ∑ k, (u k - x j k) * pderivRow F x j k = F (Function.update x j u) - F x)
    (nb : Option ((Fin D → Fin C → ℝ) → ℝ × (Fin D → Fin C → ℝ))) (mask : Option (Fin D → ℝ)) :
    ExactScoresHot (oneHotIface F nb mask) := by
  intro x _ j k
  rw [oneHotRow_update]
  change _ = F _ - F _
  rw [← h, row_score_onehot (oneHotRow C x j) (pderivRow F (oneHotRow C x) j) k]
  rfl

theorem categ_scores {D C : ℕ} (p : Fin D → Fin C → ℝ) : ExactScoresHot (categIface p) :=
  oneHot_scores (fun x j u => categ_gradient_exact p x j u) _ _

theorem potts_scores {H W C : ℕ} (wh wv wb : Fin H → Fin W → Fin C → ℝ) :
    ExactScoresHot (pottsIface wh wv wb) := by
  refine oneHot_scores (fun x j u => ?_) _ _
  obtain ⟨p, rfl⟩ := finProdFinEquiv.surjective j
  have h := potts_gradient_exact wh wv wb (fun q => x (finProdFinEquiv q)) p u
  have hu : ∀ t, pottsNet wh wv wb (unflat (Function.update x (finProdFinEquiv p) t)) =
      pottsFlat wh wv wb (Function.update (fun q => x (finProdFinEquiv q)) p t) := fun t => by
    unfold pottsFlat
    rw [← update_unflat]
    rfl
  rw [hu]
  refine Eq.trans ?_ h
  unfold pderivRow
  simp only [hu]

theorem digit_update {D C : ℕ} {x : Fin D → ℤ} (hx : x ∈ validStates C D) (j : Fin D) (k : Fin C)
    (hy : Function.update x j ((k : ℕ) : ℤ) ∈ validStates C D) :
    digit hy = Function.update (digit hx) j k := by
  funext i
  unfold digit Function.update
  by_cases h : i = j
  · subst h; simp
  · simp [h]

/-- **C111 (exact log-ratios of NormCut).** Without penalty, on unpadded edges or away from node 0 (C41). -/
theorem nc_exact_scores_partial {N C : ℕ} (cfg : NCConfig) (hp : ¬ cfg.penalty > 0) {es : List (Edge N)}
    (hl : Loopless es) (padded : ℕ) (deg : Fin (N + 1) → ℝ) (T : ℝ) (mask : Option (Fin (N + 1) → ℝ))
    {x : Fin (N + 1) → ℤ} (hx : x ∈ validStates C (N + 1)) (v : Fin (N + 1)) (k : Fin C)
    (h : padded ≤ es.length ∨ v ≠ 0) :
    ∃ g, (ncIface (C := C) cfg (graph2edges es padded) deg T mask).nbHot = some g ∧
      (g (oneHotRow C x)).2 v k =
        (ncIface (C := C) cfg (graph2edges es padded) deg T mask).f (Function.update x v ((k : ℕ) : ℤ)) -
          (ncIface (C := C) cfg (graph2edges es padded) deg T mask).f x := by
  refine ⟨_, rfl, ?_⟩
  have hy : Function.update x v ((k : ℕ) : ℤ) ∈ validStates C (N + 1) := by
    rw [mem_validStates] at hx ⊢
    intro i
    unfold Function.update
    by_cases hi : i = v
    · subst hi; simp
    · simpa [hi] using hx i
  unfold ncIface oneHotIface
  dsimp only
  rw [oneHotRow_digit hx, oneHotRow_digit hy, floor_ncOneHot, digit_update hx v k hy]
  exact nc_logratio_exact_partial cfg hp es hl padded deg T (digit hx) v k h

/-- Concrete case: two coupled spins up, no field; flipping one costs `2 λ`. -/
example (lambdaa : ℝ) :
    deltaBinary (isingIface (H := 1) (W := 2) (isingInitW lambdaa) (isingInitW lambdaa) fun _ _ => 0).grad
      (fun _ => 1) 0 = -(2 * lambdaa) := by
  rw [ising_scores _ _ _ _ (by rw [mem_validStates]; intro j; simp) 0]
  unfold isingIface binaryIface unflat flipOne
  simp only
  rw [ising_messages, ising_messages]
  have h0 : (finProdFinEquiv ((0 : Fin 1), (0 : Fin 2)) : Fin (1 * 2)) = 0 := by decide
  have h1 : (finProdFinEquiv ((0 : Fin 1), (1 : Fin 2)) : Fin (1 * 2)) = 1 := by decide
  simp [vertSum, horSum, isingInitW, Fin.sum_univ_two, h0, h1, Function.update]
  ring

end Discs
