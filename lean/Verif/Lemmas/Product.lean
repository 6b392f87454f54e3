import Verif.Spec.Product
import Verif.Spec.Batch
import Verif.Spec.Convergence
import Verif.Lemmas.MH

/-!
# Products of kernels
-/

namespace Discs.Spec

open Finset MeasureTheory

variable {X Ω : Type*} {B : ℕ}

/-- Independent chains, each computed from its own draws, have a product law. -/
theorem batchLaw_prod [Fintype Ω] [DecidableEq Ω] [DecidableEq X] {p : Fin B → Ω → ℝ}
    {f : (Fin B → Ω) → Fin B → X} {r : Fin B → Ω → X} (h : ∀ ω b, f ω b = r b (ω b)) (y : Fin B → X) :
    batchLaw p f y = ∏ b, law (p b) (r b) (y b) := by
  unfold batchLaw law
  rw [Finset.prod_univ_sum]
  refine Finset.sum_congr (by simp) fun ω _ => ?_
  by_cases hy : f ω = y
  · rw [if_pos hy]
    refine Finset.prod_congr rfl fun b _ => ?_
    rw [if_pos (by rw [← h, hy])]
  · rw [if_neg hy]
    obtain ⟨b, hb⟩ := Function.ne_iff.1 hy
    exact (Finset.prod_eq_zero (Finset.mem_univ b) (if_neg (by rwa [← h]))).symm

theorem batchLawU_prod [Fintype Ω] [DecidableEq Ω] {p : Fin B → Ω → ℝ}
    {f : (Fin B → Ω) → (Fin B → ℝ) → Fin B → X} {r : Fin B → Ω → ℝ → X}
    (h : ∀ ω u b, f ω u b = r b (ω b) (u b)) (y : Fin B → X) :
    batchLawU p f y = ∏ b, lawU (p b) (r b) (y b) := by
  unfold batchLawU lawU
  rw [Finset.prod_univ_sum]
  refine Finset.sum_congr (by simp) fun ω _ => ?_
  rw [Finset.prod_mul_distrib]
  congr 1
  have e : {u : Fin B → ℝ | (∀ b, u b ∈ Set.Ico (0 : ℝ) 1) ∧ f ω u = y} =
      Set.univ.pi fun b => {u : ℝ | u ∈ Set.Ico (0 : ℝ) 1 ∧ r b (ω b) u = y b} := by
    ext u
    simp only [Set.mem_ofPred_eq, Set.mem_pi, Set.mem_univ, true_implies, funext_iff, h]
    exact ⟨fun hu b => ⟨hu.1 b, hu.2 b⟩, fun hu => ⟨fun b => (hu b).1, fun b => (hu b).2⟩⟩
  rw [e, volume_pi_pi, ENNReal.toReal_prod]

theorem mem_prodStates [DecidableEq X] {S : Finset X} {x : Fin B → X} :
    x ∈ prodStates B S ↔ ∀ b, x b ∈ S := by
  simp [prodStates]

theorem prodKernel_reversible [DecidableEq X] {S : Finset X} {π : X → ℝ} {K : X → X → ℝ}
    (h : Reversible S π K) : Reversible (prodStates B S) (prodTarget π) (prodKernel K) := by
  intro x hx y hy
  rw [mem_prodStates] at hx hy
  unfold prodTarget prodKernel
  rw [← Finset.prod_mul_distrib, ← Finset.prod_mul_distrib]
  exact Finset.prod_congr rfl fun b _ => h _ (hx b) _ (hy b)

theorem prodKernel_stochastic [DecidableEq X] {S : Finset X} {K : X → X → ℝ} (h : Stochastic S K) :
    Stochastic (prodStates B S) (prodKernel K) := by
  refine ⟨fun x hx y => ?_, fun x hx => ?_, fun x hx y hy => ?_⟩
  · rw [mem_prodStates] at hx
    exact Finset.prod_nonneg fun b _ => h.1 _ (hx b) _
  · rw [mem_prodStates] at hx
    unfold prodKernel prodStates
    rw [← Finset.prod_univ_sum (fun _ => S) fun b z => K (x b) z]
    exact Finset.prod_eq_one fun b _ => h.2.1 _ (hx b)
  · rw [mem_prodStates] at hx hy
    push Not at hy
    obtain ⟨b, hb⟩ := hy
    exact Finset.prod_eq_zero (Finset.mem_univ b) (h.2.2 _ (hx b) _ hb)

theorem prodKernel_comp [DecidableEq X] {S : Finset X} {K L : X → X → ℝ} (x y : Fin B → X) :
    comp (prodStates B S) (prodKernel K) (prodKernel L) x y = prodKernel (comp S K L) x y := by
  unfold comp prodKernel prodStates
  rw [Finset.prod_univ_sum]
  exact Finset.sum_congr rfl fun z _ => Finset.prod_mul_distrib.symm

/-- Running a batch of independent chains for `n` steps gives independent chains run for `n` steps. -/
theorem prodKernel_iterate [DecidableEq X] {S : Finset X} {K : ℕ → X → X → ℝ} (n : ℕ)
    (x y : Fin B → X) :
    iterate (prodStates B S) (fun t => prodKernel (K t)) n x y = prodKernel (iterate S K n) x y := by
  induction n generalizing y with
  | zero =>
    unfold prodKernel iterate
    by_cases h : x = y
    · subst h; simp
    · rw [if_neg h]
      obtain ⟨b, hb⟩ := Function.ne_iff.1 h
      exact (Finset.prod_eq_zero (Finset.mem_univ b) (if_neg hb)).symm
  | succ n ih =>
    have e : iterate (prodStates B S) (fun t => prodKernel (B := B) (K t)) n x =
        prodKernel (iterate S K n) x := funext ih
    change comp _ _ _ x y = prodKernel (comp S (iterate S K n) (K n)) x y
    rw [← prodKernel_comp]
    unfold comp
    rw [e]

theorem sum_prodStates_succ [DecidableEq X] {S : Finset X} (F : (Fin (B + 1) → X) → ℝ) :
    ∑ y ∈ prodStates (B + 1) S, F y = ∑ a ∈ S, ∑ z ∈ prodStates B S, F (Fin.cons a z) := by
  rw [← Finset.sum_product' S (prodStates B S) fun a z => F (Fin.cons a z)]
  refine Finset.sum_nbij' (fun y => (y 0, Fin.tail y)) (fun p => Fin.cons p.1 p.2) ?_ ?_ ?_ ?_ ?_
  · intro y hy
    rw [mem_prodStates] at hy
    rw [Finset.mem_product, mem_prodStates]
    exact ⟨hy 0, fun b => hy b.succ⟩
  · intro p hp
    rw [Finset.mem_product, mem_prodStates] at hp
    rw [mem_prodStates]
    intro b
    refine Fin.cases hp.1 (fun b => ?_) b
    exact hp.2 b
  · intro y _; exact Fin.cons_self_tail y
  · intro p _; simp
  · intro y _
    dsimp only
    rw [Fin.cons_self_tail]

/-- Products of two measures of the same mass differ by at most the sum of the differences. -/
theorem sum_abs_prod_sub [DecidableEq X] {S : Finset X} {a c : X → ℝ} (ha : ∀ x ∈ S, 0 ≤ a x)
    (hc : ∀ x ∈ S, 0 ≤ c x) {Z d : ℝ} (hZa : ∑ x ∈ S, a x = Z) (hZc : ∑ x ∈ S, c x = Z)
    (hd : ∑ x ∈ S, |a x - c x| ≤ d * Z) (B : ℕ) :
    ∑ y ∈ prodStates B S, |(∏ b, a (y b)) - ∏ b, c (y b)| ≤ B * d * Z ^ B := by
  have hZ : 0 ≤ Z := hZa ▸ Finset.sum_nonneg ha
  induction B with
  | zero => simp
  | succ B ih =>
    rw [sum_prodStates_succ]
    have hC : ∑ z ∈ prodStates B S, ∏ b, c (z b) = Z ^ B := by
      unfold prodStates
      rw [← Finset.prod_univ_sum (fun _ : Fin B => S) fun _ x => c x, hZc]; simp
    have hstep : ∀ x ∈ S, ∀ z ∈ prodStates B S,
        |(∏ b : Fin (B + 1), a ((Fin.cons x z : Fin (B + 1) → X) b)) -
            ∏ b : Fin (B + 1), c ((Fin.cons x z : Fin (B + 1) → X) b)| ≤
          a x * |(∏ b, a (z b)) - ∏ b, c (z b)| + |a x - c x| * ∏ b, c (z b) := by
      intro x hx z hz
      rw [mem_prodStates] at hz
      have hp : 0 ≤ ∏ b, c (z b) := Finset.prod_nonneg fun b _ => hc _ (hz b)
      rw [Fin.prod_univ_succ, Fin.prod_univ_succ]
      simp only [Fin.cons_zero, Fin.cons_succ]
      have e : a x * (∏ b, a (z b)) - c x * ∏ b, c (z b) =
          a x * ((∏ b, a (z b)) - ∏ b, c (z b)) + (a x - c x) * ∏ b, c (z b) := by ring
      rw [e]
      refine (abs_add_le _ _).trans (le_of_eq ?_)
      rw [abs_mul, abs_mul, abs_of_nonneg (ha x hx), abs_of_nonneg hp]
    calc ∑ x ∈ S, ∑ z ∈ prodStates B S, |(∏ b : Fin (B + 1), a ((Fin.cons x z : Fin (B + 1) → X) b)) -
            ∏ b : Fin (B + 1), c ((Fin.cons x z : Fin (B + 1) → X) b)|
        ≤ ∑ x ∈ S, ∑ z ∈ prodStates B S,
          (a x * |(∏ b, a (z b)) - ∏ b, c (z b)| + |a x - c x| * ∏ b, c (z b)) :=
          Finset.sum_le_sum fun x hx => Finset.sum_le_sum fun z hz => hstep x hx z hz
      _ = Z * (∑ z ∈ prodStates B S, |(∏ b, a (z b)) - ∏ b, c (z b)|) +
          (∑ x ∈ S, |a x - c x|) * Z ^ B := by
          simp only [Finset.sum_add_distrib, ← Finset.mul_sum, ← Finset.sum_mul, hC, hZa]
      _ ≤ Z * (B * d * Z ^ B) + d * Z * Z ^ B :=
          add_le_add (mul_le_mul_of_nonneg_left ih hZ) (mul_le_mul_of_nonneg_right hd (by positivity))
      _ = ((B + 1 : ℕ) : ℝ) * d * Z ^ (B + 1) := by push_cast; ring

/-- Near-invariance of each chain gives near-invariance of the batch. -/
theorem prodKernel_nearlyInvariant [DecidableEq X] {S : Finset X} {π : X → ℝ} {K : X → X → ℝ} {ε : ℝ}
    (hπ : ∀ x ∈ S, 0 ≤ π x) (hK : Stochastic S K) (h : NearlyInvariant S π K ε) :
    NearlyInvariant (prodStates B S) (prodTarget π) (prodKernel K) (B * ε) := by
  unfold NearlyInvariant at h ⊢
  have e1 : ∀ y : Fin B → X, ∑ x ∈ prodStates B S, prodTarget π x * prodKernel K x y =
      ∏ b, ∑ x ∈ S, π x * K x (y b) := by
    intro y
    unfold prodTarget prodKernel prodStates
    rw [Finset.prod_univ_sum]
    exact Finset.sum_congr rfl fun x _ => Finset.prod_mul_distrib.symm
  have e2 : ∑ x ∈ prodStates B S, prodTarget π x = (∑ x ∈ S, π x) ^ B := by
    unfold prodTarget prodStates
    rw [← Finset.prod_univ_sum (fun _ : Fin B => S) fun _ x => π x]; simp
  simp only [e1, e2]
  refine sum_abs_prod_sub (a := fun y => ∑ x ∈ S, π x * K x y) (c := π)
    (fun y _ => Finset.sum_nonneg fun x hx => mul_nonneg (hπ x hx) (hK.1 x hx y)) hπ ?_ rfl h B
  rw [Finset.sum_comm]
  refine Finset.sum_congr rfl fun x hx => ?_
  rw [← Finset.mul_sum, hK.2.1 x hx, mul_one]

theorem prodKernel_invariant [DecidableEq X] {S : Finset X} {π : X → ℝ} {K : X → X → ℝ}
    (h : Invariant S π K) : Invariant (prodStates B S) (prodTarget π) (prodKernel K) := by
  intro y hy
  rw [mem_prodStates] at hy
  have e1 : ∑ x ∈ prodStates B S, prodTarget π x * prodKernel K x y =
      ∏ b, ∑ x ∈ S, π x * K x (y b) := by
    unfold prodTarget prodKernel prodStates
    rw [Finset.prod_univ_sum]
    exact Finset.sum_congr rfl fun x _ => Finset.prod_mul_distrib.symm
  rw [e1]
  exact Finset.prod_congr rfl fun b _ => h _ (hy b)

/-- A chain-local step run on a batch, with independent draws, is a batch of independent chains. -/
theorem batch_of_chainLocal [Fintype Ω] [DecidableEq Ω] [DecidableEq X] {Y : Type*} [DecidableEq Y]
    {step : ∀ B : ℕ, (Fin B → X) → (Fin B → Ω) → Fin B → Y} (h : ChainLocal step) (p : X → Ω → ℝ)
    (x : Fin B → X) (y : Fin B → Y) :
    batchLaw (fun b => p (x b)) (step B x) y =
      ∏ b, law (p (x b)) (fun ω => step 1 (fun _ => x b) (fun _ => ω) 0) (y b) :=
  batchLaw_prod (r := fun b ω => step 1 (fun _ => x b) (fun _ => ω) 0)
    (fun ω b => h B 1 x (fun _ => x b) ω (fun _ => ω b) b 0 rfl rfl) y

theorem batchU_of_chainLocal [Fintype Ω] [DecidableEq Ω] {Y : Type*}
    {step : ∀ B : ℕ, (Fin B → X) → (Fin B → Ω × ℝ) → Fin B → Y} (h : ChainLocal step) (p : X → Ω → ℝ)
    (x : Fin B → X) (y : Fin B → Y) :
    batchLawU (fun b => p (x b)) (fun ω u => step B x fun b => (ω b, u b)) y =
      ∏ b, lawU (p (x b)) (fun ω u => step 1 (fun _ => x b) (fun _ => (ω, u)) 0) (y b) :=
  batchLawU_prod (r := fun b ω u => step 1 (fun _ => x b) (fun _ => (ω, u)) 0)
    (fun ω u b => h B 1 x (fun _ => x b) (fun b => (ω b, u b)) (fun _ => (ω b, u b)) b 0 rfl rfl) y

end Discs.Spec
