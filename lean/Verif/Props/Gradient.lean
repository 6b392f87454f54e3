import Verif.Props.Comb
import Verif.Props.Lattice
import Verif.Model.Factorized
import Mathlib.Analysis.Calculus.Deriv.Add
import Mathlib.Analysis.Calculus.Deriv.Mul
import Mathlib.LinearAlgebra.Pi

/-!
# C32, C62, C63: gradient scores

The samplers score flipping site `i` by `(1 - 2 x_i) · ∂f/∂x_i` (and relabelling site `p` to `k` by
`∂f/∂x_{p,k} - ∑_c x_{p,c} ∂f/∂x_{p,c}`), where the gradient is the derivative of the energy read as
a function of real arrays.  `jax.grad` is modelled by the mathematical partial derivative.
-/

namespace Discs.Spec

/-- Partial derivative in one coordinate. -/
noncomputable def pderiv {ι : Type*} [DecidableEq ι] (f : (ι → ℝ) → ℝ) (x : ι → ℝ) (i : ι) : ℝ :=
  deriv (fun t => f (Function.update x i t)) (x i)

/-- Partial derivative in entry `k` of the row of site `p`. -/
noncomputable def pderivRow {ι κ : Type*} [DecidableEq ι] [DecidableEq κ] (f : (ι → κ → ℝ) → ℝ)
    (x : ι → κ → ℝ) (p : ι) (k : κ) : ℝ :=
  deriv (fun t => f (Function.update x p (Function.update (x p) k t))) (x p k)

end Discs.Spec

namespace Discs

open Finset Spec

section Affine

variable {ι E : Type*} [DecidableEq ι] [AddCommGroup E] [Module ℝ E]

/-- `f` is affine in coordinate `i` around `x`. -/
def AffineIn (f : (ι → E) → ℝ) (x : ι → E) (i : ι) : Prop :=
  ∃ (A : ℝ) (B : E →ₗ[ℝ] ℝ), ∀ u, f (Function.update x i u) = A + B u

variable {f g : (ι → E) → ℝ} {x : ι → E} {i : ι}

theorem AffineIn.const (c : ℝ) : AffineIn (fun _ => c) x i := ⟨c, 0, fun _ => by simp⟩

theorem AffineIn.linear (l : E →ₗ[ℝ] ℝ) (j : ι) : AffineIn (fun y => l (y j)) x i := by
  by_cases h : j = i
  · subst h; exact ⟨0, l, fun u => by simp⟩
  · exact ⟨l (x j), 0, fun u => by simp [Function.update_of_ne h]⟩

theorem AffineIn.add (hf : AffineIn f x i) (hg : AffineIn g x i) :
    AffineIn (fun y => f y + g y) x i := by
  obtain ⟨A, B, h⟩ := hf
  obtain ⟨A', B', h'⟩ := hg
  exact ⟨A + A', B + B', fun u => by dsimp only; rw [h, h', LinearMap.add_apply]; ring⟩

theorem AffineIn.smul (c : ℝ) (hf : AffineIn f x i) : AffineIn (fun y => c * f y) x i := by
  obtain ⟨A, B, h⟩ := hf
  exact ⟨c * A, c • B, fun u => by dsimp only; rw [h, LinearMap.smul_apply, smul_eq_mul]; ring⟩

theorem AffineIn.congr (hf : AffineIn f x i) (h : ∀ y, g y = f y) : AffineIn g x i := by
  obtain ⟨A, B, h'⟩ := hf
  exact ⟨A, B, fun u => by rw [h, h']⟩

theorem AffineIn.sub (hf : AffineIn f x i) (hg : AffineIn g x i) :
    AffineIn (fun y => f y - g y) x i :=
  (hf.add (hg.smul (-1))).congr fun y => by ring

theorem AffineIn.sum {α : Type*} (s : Finset α) {F : α → (ι → E) → ℝ}
    (h : ∀ a ∈ s, AffineIn (F a) x i) : AffineIn (fun y => ∑ a ∈ s, F a y) x i := by
  classical
  induction s using Finset.induction_on with
  | empty => exact (AffineIn.const 0).congr fun y => by simp
  | insert a s ha ih =>
    refine ((h a (Finset.mem_insert_self a s)).add
      (ih fun b hb => h b (Finset.mem_insert_of_mem hb))).congr fun y => ?_
    rw [Finset.sum_insert ha]

/-- A product of functions of two different coordinates. -/
theorem AffineIn.mul {φ ψ : E → ℝ} {a b : ι} (hab : a ≠ b)
    (hf : AffineIn (fun y => φ (y a)) x i) (hg : AffineIn (fun y => ψ (y b)) x i) :
    AffineIn (fun y => φ (y a) * ψ (y b)) x i := by
  obtain ⟨A, B, h⟩ := hf
  obtain ⟨A', B', h'⟩ := hg
  by_cases h1 : a = i
  · have h2 : b ≠ i := fun h => hab (h1.trans h.symm)
    refine ⟨A * ψ (x b), (ψ (x b)) • B, fun u => ?_⟩
    have e := h u
    dsimp only at e ⊢
    rw [e, Function.update_of_ne h2, LinearMap.smul_apply, smul_eq_mul]; ring
  · refine ⟨φ (x a) * A', (φ (x a)) • B', fun u => ?_⟩
    have e := h' u
    dsimp only at e ⊢
    rw [e, Function.update_of_ne h1, LinearMap.smul_apply, smul_eq_mul]; ring

end Affine

theorem AffineIn.coord {ι : Type*} [DecidableEq ι] {x : ι → ℝ} {i : ι} (j : ι) :
    AffineIn (fun y : ι → ℝ => y j) x i := AffineIn.linear LinearMap.id j

/-- For a function affine in coordinate `i` the gradient score is the exact change. -/
theorem affine_score {ι : Type*} [DecidableEq ι] {f : (ι → ℝ) → ℝ} {x : ι → ℝ} {i : ι}
    (h : AffineIn f x i) :
    (1 - 2 * x i) * pderiv f x i = f (Function.update x i (1 - x i)) - f x := by
  obtain ⟨A, B, h⟩ := h
  have hB : ∀ t : ℝ, B t = B 1 * t := fun t => by
    have := B.map_smul t 1
    rw [smul_eq_mul, mul_one, smul_eq_mul] at this
    rw [this]; ring
  have hd : pderiv f x i = B 1 := by
    unfold pderiv
    have : (fun t => f (Function.update x i t)) = fun t => A + B 1 * t := by
      funext t; rw [h, hB]
    rw [this]
    have h1 : HasDerivAt (fun t : ℝ => A + B 1 * t) (B 1) (x i) := by
      simpa using ((hasDerivAt_id (x i)).const_mul (B 1)).const_add A
    exact h1.deriv
  have hx : f x = A + B (x i) := by
    rw [← h, Function.update_eq_self]
  rw [hd, h, hx, hB (1 - x i), hB (x i)]
  ring

/-- The same for rows: the score of replacing the row of site `p` by `u`. -/
theorem affine_row_score {ι κ : Type*} [DecidableEq ι] [DecidableEq κ] [Fintype κ]
    {f : (ι → κ → ℝ) → ℝ} {x : ι → κ → ℝ} {p : ι} (h : AffineIn f x p) (u : κ → ℝ) :
    ∑ k, (u k - x p k) * pderivRow f x p k = f (Function.update x p u) - f x := by
  obtain ⟨A, B, h⟩ := h
  have hB : ∀ w : κ → ℝ, B w = ∑ k, w k * B (Pi.single k 1) := fun w => by
    conv_lhs => rw [pi_eq_sum_univ' w]
    rw [map_sum]
    refine Finset.sum_congr rfl fun k _ => ?_
    rw [map_smul, smul_eq_mul]
  have hd : ∀ k, pderivRow f x p k = B (Pi.single k 1) := by
    intro k
    unfold pderivRow
    have : (fun t => f (Function.update x p (Function.update (x p) k t))) =
        fun t => A + B (Function.update (x p) k 0) + t * B (Pi.single k 1) := by
      funext t
      rw [h]
      have e : Function.update (x p) k t = Function.update (x p) k 0 + t • Pi.single k (1 : ℝ) := by
        funext j
        by_cases hj : j = k
        · subst hj; simp
        · simp [Function.update_of_ne hj, Pi.single_eq_of_ne hj]
      rw [e, map_add, map_smul, smul_eq_mul]; ring
    rw [this]
    have h1 : HasDerivAt (fun t : ℝ => A + B (Function.update (x p) k 0) + t * B (Pi.single k 1))
        (B (Pi.single k 1)) (x p k) := by
      simpa using ((hasDerivAt_id (x p k)).mul_const (B (Pi.single k 1))).const_add
        (A + B (Function.update (x p) k 0))
    exact h1.deriv
  have hx : f x = A + B (x p) := by
    rw [← h, Function.update_eq_self]
  rw [h, hx, hB u, hB (x p)]
  simp only [hd, sub_mul, Finset.sum_sub_distrib]
  ring

/-! ### C32 -/

/-- **C32 (Bernoulli).** -/
theorem bern_gradient_exact {D : ℕ} (p x : Fin D → ℝ) (i : Fin D) :
    (1 - 2 * x i) * pderiv (bernForward p) x i =
      bernForward p (Function.update x i (1 - x i)) - bernForward p x := by
  refine affine_score ?_
  unfold bernForward
  exact AffineIn.sum _ fun j _ => ((AffineIn.coord j).smul (p j)).congr fun y => by ring

/-- `Ising.forward` as a function of the flattened grid. -/
noncomputable def isingFlat {H W : ℕ} (wh wv wb : Grid H W) (x : Fin H × Fin W → ℝ) : ℝ :=
  isingForward wh wv wb fun r c => x (r, c)

/-- **C32 (Ising).** The energy evaluated by `get_value_and_grad` (float samples). -/
theorem ising_gradient_exact {H W : ℕ} (wh wv wb : Grid H W) (x : Fin H × Fin W → ℝ)
    (i : Fin H × Fin W) :
    (1 - 2 * x i) * pderiv (isingFlat wh wv wb) x i =
      isingFlat wh wv wb (Function.update x i (1 - x i)) - isingFlat wh wv wb x := by
  refine affine_score ?_
  have hs : ∀ j : Fin H × Fin W, AffineIn (fun y : Fin H × Fin W → ℝ => 2 * y j - 1) x i := fun j =>
    ((AffineIn.coord j).smul 2).sub (AffineIn.const 1)
  have hmul : ∀ {a b : Fin H × Fin W}, a ≠ b → ∀ w : ℝ,
      AffineIn (fun y : Fin H × Fin W → ℝ => w * ((2 * y a - 1) * (2 * y b - 1))) x i := fun hab w =>
    (AffineIn.mul (φ := fun t => 2 * t - 1) (ψ := fun t => 2 * t - 1) hab (hs _) (hs _)).smul w
  have h1 : AffineIn (fun y : Fin H × Fin W → ℝ => vertSum (fun r c => 2 * y (r, c) - 1) wv) x i := by
    unfold vertSum
    refine AffineIn.sum _ fun r _ => AffineIn.sum _ fun c _ => AffineIn.sum _ fun r' _ => ?_
    split_ifs with h
    · refine hmul (fun he => ?_) _
      have := congrArg (fun p => (Prod.fst p).val) he
      simp only at this; omega
    · exact AffineIn.const 0
  have h2 : AffineIn (fun y : Fin H × Fin W → ℝ => horSum (fun r c => 2 * y (r, c) - 1) wh) x i := by
    unfold horSum
    refine AffineIn.sum _ fun r _ => AffineIn.sum _ fun c _ => AffineIn.sum _ fun r' _ => ?_
    split_ifs with h
    · refine hmul (fun he => ?_) _
      have := congrArg (fun p => (Prod.snd p).val) he
      simp only at this; omega
    · exact AffineIn.const 0
  have h3 : AffineIn (fun y : Fin H × Fin W → ℝ => ∑ r, ∑ c, wb r c * (2 * y (r, c) - 1)) x i :=
    AffineIn.sum _ fun r _ => AffineIn.sum _ fun c _ => (hs (r, c)).smul _
  refine (((h1.add h2).smul (-1)).sub h3).congr fun y => ?_
  unfold isingFlat
  rw [ising_messages]; ring

variable {N : ℕ}

/-- A sum of products over the edge arrays is affine in every site, if real edges are not loops. -/
theorem affine_edges {es : List (Edge N)} (hl : Loopless es) (padded : ℕ) {φ : Fin (N + 1) → ℝ → ℝ}
    {x : Fin (N + 1) → ℝ} {i : Fin (N + 1)}
    (hφ : ∀ j, AffineIn (fun y : Fin (N + 1) → ℝ => φ j (y j)) x i)
    (w : ℝ → ℝ → ℝ) (hw : w 0 0 = 0) :
    AffineIn (fun y : Fin (N + 1) → ℝ => ∑ k, w ((graph2edges es padded).edgeMask k)
      ((graph2edges es padded).edgeWeight k) *
        (φ ((graph2edges es padded).edgeFrom k) (y ((graph2edges es padded).edgeFrom k)) *
          φ ((graph2edges es padded).edgeTo k) (y ((graph2edges es padded).edgeTo k)))) x i := by
  refine AffineIn.sum _ fun k _ => ?_
  by_cases hk : k.val < es.length
  · refine AffineIn.smul _ (AffineIn.mul (φ := φ ((graph2edges es padded).edgeFrom k))
      (ψ := φ ((graph2edges es padded).edgeTo k)) ?_ (hφ _) (hφ _))
    have := hl _ (List.getElem_mem hk)
    unfold graph2edges
    simpa [hk] using this
  · have : w ((graph2edges es padded).edgeMask k) ((graph2edges es padded).edgeWeight k) = 0 := by
      unfold graph2edges; simp [hk, hw]
    simp only [this, zero_mul]
    exact AffineIn.const 0

/-- **C32 (MaxCut).** -/
theorem maxcut_gradient_exact {es : List (Edge N)} (hl : Loopless es) (padded : ℕ) (T : ℝ)
    (x : Fin (N + 1) → ℝ) (i : Fin (N + 1)) :
    (1 - 2 * x i) * pderiv (combForward (maxcutObjective (graph2edges es padded)) noPenalty T) x i =
      combForward (maxcutObjective (graph2edges es padded)) noPenalty T (Function.update x i (1 - x i)) -
        combForward (maxcutObjective (graph2edges es padded)) noPenalty T x := by
  refine affine_score ?_
  have h1 := affine_edges (x := x) (i := i) hl padded (φ := fun _ t => t * 2 - 1)
    (fun j => (((AffineIn.coord j).smul 2).sub (AffineIn.const 1)).congr fun y => by ring)
    (fun _ w => w) rfl
  have h2 : AffineIn (fun _ : Fin (N + 1) → ℝ => ∑ k, (graph2edges es padded).edgeWeight k) x i :=
    AffineIn.const _
  refine ((h2.sub h1).smul (1 / 2 / T)).congr fun y => ?_
  unfold combForward noPenalty
  simp only [maxcutObjective]
  rw [← Finset.sum_sub_distrib, Finset.mul_sum, sub_zero, Finset.sum_div]
  refine Finset.sum_congr rfl fun k _ => ?_
  ring

/-- The covered-edge sum of the MIS and clique penalties. -/
theorem affine_inside {es : List (Edge N)} (hl : Loopless es) (padded : ℕ) (mask x : Fin (N + 1) → ℝ)
    (i : Fin (N + 1)) :
    AffineIn (fun y : Fin (N + 1) → ℝ => ∑ k, y ((graph2edges es padded).edgeFrom k) *
      mask ((graph2edges es padded).edgeFrom k) * (y ((graph2edges es padded).edgeTo k) *
        mask ((graph2edges es padded).edgeTo k)) * (graph2edges es padded).edgeMask k) x i := by
  have h1 := affine_edges (x := x) (i := i) hl padded (φ := fun j t => t * mask j)
    (fun j => ((AffineIn.coord j).smul (mask j)).congr fun y => by ring) (fun m _ => m) rfl
  exact h1.congr fun y => Finset.sum_congr rfl fun k _ => by ring

theorem affine_masked_sum (mask x : Fin (N + 1) → ℝ) (i : Fin (N + 1)) :
    AffineIn (fun y : Fin (N + 1) → ℝ => ∑ v, y v * mask v) x i :=
  AffineIn.sum _ fun j _ => ((AffineIn.coord j).smul (mask j)).congr fun y => by ring

/-- **C32 (MIS).** -/
theorem mis_gradient_exact {es : List (Edge N)} (hl : Loopless es) (padded : ℕ)
    (mask : Fin (N + 1) → ℝ) (coeff T : ℝ) (x : Fin (N + 1) → ℝ) (i : Fin (N + 1)) :
    (1 - 2 * x i) * pderiv (combForward (misObjective mask)
        (misPenalty (graph2edges es padded) mask coeff) T) x i =
      combForward (misObjective mask) (misPenalty (graph2edges es padded) mask coeff) T
          (Function.update x i (1 - x i)) -
        combForward (misObjective mask) (misPenalty (graph2edges es padded) mask coeff) T x := by
  refine affine_score ?_
  refine (((affine_masked_sum mask x i).sub ((affine_inside hl padded mask x i).smul coeff)).smul
    (1 / T)).congr fun y => ?_
  unfold combForward misObjective
  simp only [misPenalty]
  ring

/-- Concrete case for the edge-based theorems: the weighted triangle with one padding entry is
loopless. -/
example : Loopless ([⟨0, 1, 1⟩, ⟨1, 2, 2⟩, ⟨0, 2, 4⟩] : List (Edge 2)) := by
  unfold Loopless
  simp only [List.mem_cons, List.not_mem_nil, or_false, forall_eq_or_imp, forall_eq]
  decide

/-! ### C62: max-clique scores are off by a constant -/

/-- For a function `f` with `f = a + b·(s·s)` where `a` and `s` are affine in site `i` with slope `d`
of `s`: the square contributes an error of `-b·d²` for a binary site. -/
theorem square_score {ι : Type*} [DecidableEq ι] {a s : (ι → ℝ) → ℝ} {x : ι → ℝ} {i : ι}
    (ha : AffineIn a x i) {c d : ℝ} (hs : ∀ u, s (Function.update x i u) = c + d * u) (b : ℝ)
    (hx : x i = 0 ∨ x i = 1) :
    (1 - 2 * x i) * pderiv (fun y => a y + b * (s y * s y)) x i =
      (a (Function.update x i (1 - x i)) +
        b * (s (Function.update x i (1 - x i)) * s (Function.update x i (1 - x i)))) -
        (a x + b * (s x * s x)) - b * d ^ 2 := by
  obtain ⟨A, B, h⟩ := ha
  have hB : ∀ t : ℝ, B t = B 1 * t := fun t => by
    have := B.map_smul t 1
    rw [smul_eq_mul, mul_one, smul_eq_mul] at this
    rw [this]; ring
  have hd : pderiv (fun y => a y + b * (s y * s y)) x i = B 1 + b * (2 * d * (c + d * x i)) := by
    unfold pderiv
    have : (fun t => a (Function.update x i t) +
        b * (s (Function.update x i t) * s (Function.update x i t))) =
        fun t => A + B 1 * t + b * ((c + d * t) * (c + d * t)) := by
      funext t; rw [h, hB, hs]
    rw [this]
    have h0 : HasDerivAt (fun t : ℝ => c + d * t) d (x i) := by
      simpa using ((hasDerivAt_id (x i)).const_mul d).const_add c
    have h1 : HasDerivAt (fun t : ℝ => A + B 1 * t) (B 1) (x i) := by
      simpa using ((hasDerivAt_id (x i)).const_mul (B 1)).const_add A
    have h2 := h1.add ((h0.mul h0).const_mul b)
    refine h2.deriv.trans ?_
    ring
  have hx' : a x = A + B 1 * x i := by
    rw [← hB, ← h, Function.update_eq_self]
  have hsx : s x = c + d * x i := by
    rw [← hs, Function.update_eq_self]
  rw [hd, h, hx', hB (1 - x i), hs, hsx]
  rcases hx with h0 | h0 <;> rw [h0] <;> ring

/-- **C62.** For the max-clique energy the gradient score of every real node of every 0/1 sample is
the true change of log-likelihood plus the constant `coeff / (2 T)`; masked nodes score exactly 0. -/
theorem clique_gradient_shift {es : List (Edge N)} (hl : Loopless es) (padded n : ℕ) (coeff T : ℝ)
    {x : Fin (N + 1) → ℝ} (hx : IsBinary x) (i : Fin (N + 1)) :
    (1 - 2 * x i) * pderiv (combForward (misObjective (nodeMask n))
        (cliquePenalty (graph2edges es padded) (nodeMask n) coeff) T) x i =
      combForward (misObjective (nodeMask n)) (cliquePenalty (graph2edges es padded) (nodeMask n) coeff)
          T (flipAt x i) -
        combForward (misObjective (nodeMask n))
          (cliquePenalty (graph2edges es padded) (nodeMask n) coeff) T x +
      if i.val < n then coeff / (2 * T) else 0 := by
  have hf : combForward (misObjective (nodeMask n))
      (cliquePenalty (graph2edges es padded) (nodeMask n) coeff) T = fun y : Fin (N + 1) → ℝ =>
      ((1 + coeff / 2) / T * (∑ v, y v * nodeMask n v) + coeff / T *
        (∑ k, y ((graph2edges es padded).edgeFrom k) *
      nodeMask n ((graph2edges es padded).edgeFrom k) * (y ((graph2edges es padded).edgeTo k) *
        nodeMask n ((graph2edges es padded).edgeTo k)) * (graph2edges es padded).edgeMask k)) +
      (-(coeff / (2 * T))) * ((∑ v, y v * nodeMask n v) * ∑ v, y v * nodeMask n v) := by
    funext y
    unfold combForward misObjective
    simp only [cliquePenalty]
    by_cases hT : T = 0
    · subst hT; simp
    · field_simp
      ring
  have hs : ∀ u, ∑ v, Function.update x i u v * (nodeMask n v : ℝ) =
      (∑ v ∈ univ.erase i, x v * nodeMask n v) + nodeMask n i * u := by
    intro u
    rw [← Finset.add_sum_erase _ _ (Finset.mem_univ i), Function.update_self]
    rw [Finset.sum_congr rfl fun v hv => by rw [Function.update_of_ne (Finset.ne_of_mem_erase hv)]]
    ring
  rw [hf]
  rw [square_score (s := fun y : Fin (N + 1) → ℝ => ∑ v, y v * nodeMask n v)
    (((affine_masked_sum (nodeMask n) x i).smul ((1 + coeff / 2) / T)).add
      ((affine_inside hl padded (nodeMask n) x i).smul (coeff / T))) hs _ (hx i)]
  unfold flipAt
  rw [sub_eq_add_neg]
  congr 1
  unfold nodeMask
  split_ifs <;> ring

/-! ### C63: one-hot gradient scores of the categorical energies -/

/-- **C63 (Categorical).** -/
theorem categ_gradient_exact {D C : ℕ} (p x : Fin D → Fin C → ℝ) (j : Fin D) (u : Fin C → ℝ) :
    ∑ k, (u k - x j k) * pderivRow (categNet p) x j k =
      categNet p (Function.update x j u) - categNet p x := by
  refine affine_row_score ?_ u
  unfold categNet
  refine AffineIn.sum _ fun a _ => AffineIn.sum _ fun c _ => ?_
  exact ((AffineIn.linear (LinearMap.proj c) a).smul (p a c)).congr fun y => by
    simp only [LinearMap.proj_apply]; ring

/-- `Potts.forward` on one-hot arrays, as a function of the flattened grid. -/
noncomputable def pottsFlat {H W C : ℕ} (wh wv wb : Fin H → Fin W → Fin C → ℝ)
    (x : Fin H × Fin W → Fin C → ℝ) : ℝ := pottsNet wh wv wb fun r c => x (r, c)

/-- **C63 (Potts).** -/
theorem potts_gradient_exact {H W C : ℕ} (wh wv wb : Fin H → Fin W → Fin C → ℝ)
    (x : Fin H × Fin W → Fin C → ℝ) (p : Fin H × Fin W) (u : Fin C → ℝ) :
    ∑ k, (u k - x p k) * pderivRow (pottsFlat wh wv wb) x p k =
      pottsFlat wh wv wb (Function.update x p u) - pottsFlat wh wv wb x := by
  refine affine_row_score ?_ u
  have hs : ∀ (j : Fin H × Fin W) (k : Fin C),
      AffineIn (fun y : Fin H × Fin W → Fin C → ℝ => y j k) x p := fun j k =>
    (AffineIn.linear (LinearMap.proj k : (Fin C → ℝ) →ₗ[ℝ] ℝ) j).congr fun y => rfl
  have hmul : ∀ {a b : Fin H × Fin W} (k : Fin C), a ≠ b → ∀ w : ℝ,
      AffineIn (fun y : Fin H × Fin W → Fin C → ℝ => w * (y a k * y b k)) x p := fun k hab w =>
    (AffineIn.mul (φ := fun t : Fin C → ℝ => t k) (ψ := fun t : Fin C → ℝ => t k) hab (hs _ k)
      (hs _ k)).smul w
  have h1 : AffineIn (fun y : Fin H × Fin W → Fin C → ℝ =>
      ∑ k, (horSum (fun r c => y (r, c) k) (fun r c => wh r c k) +
        vertSum (fun r c => y (r, c) k) fun r c => wv r c k)) x p := by
    refine AffineIn.sum _ fun k _ => AffineIn.add ?_ ?_
    · unfold horSum
      refine AffineIn.sum _ fun r _ => AffineIn.sum _ fun c _ => AffineIn.sum _ fun r' _ => ?_
      split_ifs with h
      · refine hmul k (fun he => ?_) _
        have := congrArg (fun p => (Prod.snd p).val) he
        simp only at this; omega
      · exact AffineIn.const 0
    · unfold vertSum
      refine AffineIn.sum _ fun r _ => AffineIn.sum _ fun c _ => AffineIn.sum _ fun r' _ => ?_
      split_ifs with h
      · refine hmul k (fun he => ?_) _
        have := congrArg (fun p => (Prod.fst p).val) he
        simp only at this; omega
      · exact AffineIn.const 0
  have h2 : AffineIn (fun y : Fin H × Fin W → Fin C → ℝ =>
      ∑ r, ∑ c, ∑ k, wb r c k * y (r, c) k) x p :=
    AffineIn.sum _ fun r _ => AffineIn.sum _ fun c _ => AffineIn.sum _ fun k _ => (hs (r, c) k).smul _
  refine ((h1.smul (-1)).sub h2).congr fun y => ?_
  unfold pottsFlat
  rw [potts_messages]; ring

/-- The score used by the samplers (`grad[k] - ∑ grad · x`, `gwg.py:138`) is the row score for a
one-hot row. -/
theorem row_score_onehot {C : ℕ} (x g : Fin C → ℝ) (k : Fin C) :
    ∑ c, ((if c = k then 1 else 0) - x c) * g c = g k - ∑ c, g c * x c := by
  simp only [sub_mul, Finset.sum_sub_distrib, ite_mul, one_mul, zero_mul, Finset.sum_ite_eq',
    Finset.mem_univ, if_true]
  congr 1
  exact Finset.sum_congr rfl fun c _ => mul_comm _ _

/-- **C63 (as used).** The gradient score of relabelling site `p` to category `k` is the change of
the Potts log-likelihood. -/
theorem potts_score_exact {H W C : ℕ} (wh wv wb : Fin H → Fin W → Fin C → ℝ)
    (x : Fin H × Fin W → Fin C → ℝ) (p : Fin H × Fin W) (k : Fin C) :
    pderivRow (pottsFlat wh wv wb) x p k - ∑ c, pderivRow (pottsFlat wh wv wb) x p c * x p c =
      pottsFlat wh wv wb (Function.update x p fun c => if c = k then 1 else 0) -
        pottsFlat wh wv wb x := by
  rw [← potts_gradient_exact, row_score_onehot]

/-- **C63 (as used).** The same for the factorised categorical model. -/
theorem categ_score_exact {D C : ℕ} (p x : Fin D → Fin C → ℝ) (j : Fin D) (k : Fin C) :
    pderivRow (categNet p) x j k - ∑ c, pderivRow (categNet p) x j c * x j c =
      categNet p (Function.update x j fun c => if c = k then 1 else 0) - categNet p x := by
  rw [← categ_gradient_exact, row_score_onehot]

end Discs
