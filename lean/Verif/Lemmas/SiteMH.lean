import Verif.Model.DState
import Verif.Lemmas.LocallyBalanced
import Mathlib.Algebra.BigOperators.Fin
import Mathlib.Data.Fin.Tuple.Basic
import Mathlib.Logic.Equiv.Fin.Basic

/-!
# Helper lemmas: Metropolis–Hastings with independent per-site proposals

Binary flips with a guarded log-likelihood, and per-site categorical redraws.
-/

namespace Discs.Spec

open Finset

variable {X Ω : Type*}

/-- Two proposals with the same moves and acceptance probabilities give kernels whose rows differ by at
most the distance of the proposals. -/
theorem mhKernel_close [Fintype Ω] [DecidableEq X] {S : Finset X} {q q' : X → Ω → ℝ}
    {move : X → Ω → X} {A : X → Ω → ℝ} (hA0 : ∀ x ω, 0 ≤ A x ω) (hA1 : ∀ x ω, A x ω ≤ 1) (x : X) :
    ∑ y ∈ S, |mhKernel q move A x y - mhKernel q' move A x y| ≤ ∑ ω, |q x ω - q' x ω| := by
  calc ∑ y ∈ S, |mhKernel q move A x y - mhKernel q' move A x y|
      ≤ ∑ y ∈ S, ∑ ω, |q x ω - q' x ω| *
          ((if move x ω = y then A x ω else 0) + (if x = y then 1 - A x ω else 0)) := by
        refine Finset.sum_le_sum fun y _ => ?_
        unfold mhKernel
        rw [← Finset.sum_sub_distrib]
        refine (Finset.abs_sum_le_sum_abs _ _).trans (Finset.sum_le_sum fun ω _ => ?_)
        rw [← sub_mul, abs_mul]
        refine mul_le_mul_of_nonneg_left (le_of_eq (abs_of_nonneg ?_)) (abs_nonneg _)
        refine add_nonneg ?_ ?_
        · split_ifs; exacts [hA0 x ω, le_rfl]
        · split_ifs; exacts [sub_nonneg.2 (hA1 x ω), le_rfl]
    _ = ∑ ω, |q x ω - q' x ω| * ∑ y ∈ S,
          ((if move x ω = y then A x ω else 0) + (if x = y then 1 - A x ω else 0)) := by
        rw [Finset.sum_comm]
        exact Finset.sum_congr rfl fun ω _ => (Finset.mul_sum _ _ _).symm
    _ ≤ ∑ ω, |q x ω - q' x ω| := by
        refine Finset.sum_le_sum fun ω _ => mul_le_of_le_one_right (abs_nonneg _) ?_
        rw [Finset.sum_add_distrib, Finset.sum_ite_eq, Finset.sum_ite_eq]
        have h0 := hA0 x ω
        have h1 := hA1 x ω
        split_ifs <;> linarith

/-- A kernel close to a nearly invariant one is nearly invariant. -/
theorem NearlyInvariant.of_close {S : Finset X} {π : X → ℝ} {K L : X → X → ℝ} {ε δ : ℝ}
    (hπ : ∀ x ∈ S, 0 ≤ π x) (hK : NearlyInvariant S π K ε)
    (hKL : ∀ x ∈ S, ∑ y ∈ S, |L x y - K x y| ≤ δ) : NearlyInvariant S π L (ε + δ) := by
  unfold NearlyInvariant at *
  calc ∑ y ∈ S, |∑ x ∈ S, π x * L x y - π y|
      ≤ ∑ y ∈ S, (|∑ x ∈ S, π x * K x y - π y| + ∑ x ∈ S, π x * |L x y - K x y|) := by
        refine Finset.sum_le_sum fun y _ => ?_
        have e : ∑ x ∈ S, π x * L x y - π y =
            (∑ x ∈ S, π x * K x y - π y) + ∑ x ∈ S, π x * (L x y - K x y) := by
          simp only [mul_sub, Finset.sum_sub_distrib]; ring
        rw [e]
        refine (abs_add_le _ _).trans (add_le_add le_rfl ?_)
        refine (Finset.abs_sum_le_sum_abs _ _).trans (Finset.sum_le_sum fun x hx => ?_)
        rw [abs_mul, abs_of_nonneg (hπ x hx)]
    _ = ∑ y ∈ S, |∑ x ∈ S, π x * K x y - π y| + ∑ x ∈ S, π x * ∑ y ∈ S, |L x y - K x y| := by
        rw [Finset.sum_add_distrib]
        congr 1
        rw [Finset.sum_comm]
        exact Finset.sum_congr rfl fun x _ => (Finset.mul_sum _ _ _).symm
    _ ≤ ε * ∑ x ∈ S, π x + ∑ x ∈ S, π x * δ :=
        add_le_add hK (Finset.sum_le_sum fun x hx => mul_le_mul_of_nonneg_left (hKL x hx) (hπ x hx))
    _ = (ε + δ) * ∑ x ∈ S, π x := by rw [← Finset.sum_mul]; ring

/-- Metropolis–Hastings whose acceptance ratio is computed for a slightly different proposal `q'` than
the one `q` the draws come from. -/
theorem PathMH.nearlyInvariant_step_close [Fintype Ω] {S : Finset X} {π : X → ℝ} {q q' : X → Ω → ℝ}
    {move : X → Ω → X} {rev : X → Ω → Ω} {lacc : X → Ω → ℝ} (H : PathMH S π q' move rev lacc)
    {δ : ℝ} (hclose : ∀ x ∈ S, ∑ ω, |q x ω - q' x ω| ≤ δ) {tiny : ℝ} (ht : 0 ≤ tiny)
    {stepf : X → Ω → ℝ → X} (h : IsMHStep S tiny move lacc stepf) :
    NearlyInvariant S π (fun x y => lawU (q x) (stepf x) y) (2 * tiny + δ) := by
  classical
  refine NearlyInvariant.congr (h.lawU_eq ht q) ?_
  refine NearlyInvariant.of_close (fun x hx => (H.pi_pos x hx).le) (H.nearlyInvariant ht) ?_
  intro x hx
  exact (mhKernel_close (fun _ _ => acceptProb_nonneg _ _) (fun _ _ => acceptProb_le_one _ _) x).trans
    (hclose x hx)

end Discs.Spec

namespace Discs

open Finset Spec

variable {D : ℕ}

/-! ## Flips -/

theorem isProb_flipLaw {p : Fin D → ℝ} (h : ∀ j, 0 ≤ p j ∧ p j ≤ 1) : IsProb (flipLaw p) := by
  refine ⟨fun ω => Finset.prod_nonneg fun j _ => ?_, ?_⟩
  · have := h j; split_ifs <;> linarith
  · unfold flipLaw
    have := Fintype.prod_sum (f := fun (j : Fin D) (b : Bool) => if b then p j else 1 - p j)
    rw [← this]
    refine Finset.prod_eq_one fun j _ => ?_
    simp

/-- The total-variation distance of two product Bernoulli laws is at most the sum over sites. -/
theorem flipLaw_close : ∀ {D : ℕ} {p p' : Fin D → ℝ}, (∀ j, 0 ≤ p j ∧ p j ≤ 1) →
    (∀ j, 0 ≤ p' j ∧ p' j ≤ 1) →
    ∑ ω, |flipLaw p ω - flipLaw p' ω| ≤ ∑ j, 2 * |p j - p' j|
  | 0, p, p', _, _ => by simp [flipLaw]
  | D + 1, p, p', h, h' => by
    have ih := flipLaw_close (fun j => h j.succ) (fun j => h' j.succ)
    rw [← (Fin.consEquiv fun _ => Bool).sum_comp, Fintype.sum_prod_type]
    have e : ∀ (p : Fin (D + 1) → ℝ) (b : Bool) (ω : Fin D → Bool),
        flipLaw p (Fin.consEquiv (fun _ => Bool) (b, ω)) =
          (if b then p 0 else 1 - p 0) * flipLaw (fun j => p j.succ) ω := by
      intro p b ω
      unfold flipLaw
      rw [Fin.prod_univ_succ]
      rfl
    simp only [e]
    have hA := isProb_flipLaw (fun j => h (Fin.succ j))
    have hB := isProb_flipLaw (fun j => h' (Fin.succ j))
    have key : ∀ b : Bool, ∑ ω, |(if b then p 0 else 1 - p 0) * flipLaw (fun j => p j.succ) ω -
        (if b then p' 0 else 1 - p' 0) * flipLaw (fun j => p' j.succ) ω| ≤
        |p 0 - p' 0| + (if b then p' 0 else 1 - p' 0) *
          ∑ ω, |flipLaw (fun j => p j.succ) ω - flipLaw (fun j => p' j.succ) ω| := by
      intro b
      have hb : 0 ≤ (if b then p' 0 else 1 - p' 0) := by
        have := h' 0; split_ifs <;> linarith
      have hd : |(if b then p 0 else 1 - p 0) - (if b then p' 0 else 1 - p' 0)| = |p 0 - p' 0| := by
        split_ifs
        · rfl
        · rw [← abs_neg]; congr 1; ring
      calc _ ≤ ∑ ω, (|p 0 - p' 0| * flipLaw (fun j => p j.succ) ω + (if b then p' 0 else 1 - p' 0) *
              |flipLaw (fun j => p j.succ) ω - flipLaw (fun j => p' j.succ) ω|) := by
            refine Finset.sum_le_sum fun ω _ => ?_
            rw [← hd]
            have e2 : (if b then p 0 else 1 - p 0) * flipLaw (fun j => p j.succ) ω -
                (if b then p' 0 else 1 - p' 0) * flipLaw (fun j => p' j.succ) ω =
                ((if b then p 0 else 1 - p 0) - (if b then p' 0 else 1 - p' 0)) *
                  flipLaw (fun j => p j.succ) ω + (if b then p' 0 else 1 - p' 0) *
                  (flipLaw (fun j => p j.succ) ω - flipLaw (fun j => p' j.succ) ω) := by ring
            rw [e2]
            refine (abs_add_le _ _).trans (le_of_eq ?_)
            rw [abs_mul, abs_mul, abs_of_nonneg (hA.1 ω), abs_of_nonneg hb]
        _ = _ := by
            rw [Finset.sum_add_distrib, ← Finset.mul_sum, ← Finset.mul_sum, hA.2, mul_one]
    rw [Fin.sum_univ_succ]
    refine (Finset.sum_le_sum fun b _ => key b).trans ?_
    simp only [Fintype.sum_bool, if_true, Bool.false_eq_true, if_false]
    nlinarith

/-- The flip probability the guarded log-likelihood really describes. -/
noncomputable def guardProb (eps p : ℝ) : ℝ := (p + eps) / (1 + 2 * eps)

theorem guardProb_mem {eps p : ℝ} (he : 0 ≤ eps) (h0 : 0 ≤ p) (h1 : p ≤ 1) :
    0 ≤ guardProb eps p ∧ guardProb eps p ≤ 1 := by
  unfold guardProb
  have : 0 < 1 + 2 * eps := by linarith
  exact ⟨by positivity, by rw [div_le_one this]; linarith⟩

theorem guardProb_close {eps p : ℝ} (he : 0 ≤ eps) (h0 : 0 ≤ p) (h1 : p ≤ 1) :
    |p - guardProb eps p| ≤ eps := by
  unfold guardProb
  have : 0 < 1 + 2 * eps := by linarith
  have e : p - (p + eps) / (1 + 2 * eps) = eps * (2 * p - 1) / (1 + 2 * eps) := by
    field_simp; ring
  rw [e, abs_div, abs_mul, abs_of_nonneg he, abs_of_pos this, div_le_iff₀ this]
  have : |2 * p - 1| ≤ 1 := by rw [abs_le]; constructor <;> linarith
  nlinarith

theorem guardProb_zero (p : ℝ) : guardProb 0 p = p := by unfold guardProb; simp

theorem flipSites_valid {x : Fin D → ℤ} (hx : x ∈ validStates 2 D) (ω : Fin D → Bool) :
    flipSites x ω ∈ validStates 2 D := by
  rw [mem_validStates_two] at *
  intro j
  have := hx j
  unfold flipSites
  cases ω j <;> simp <;> omega

theorem flipSites_back (x : Fin D → ℤ) (ω : Fin D → Bool) : flipSites (flipSites x ω) ω = x := by
  funext j
  unfold flipSites
  cases ω j <;> simp

/-- The guarded log-likelihood is the log of the guarded flip law, up to a constant. -/
theorem exp_flipLl {eps : ℝ} {p : Fin D → ℝ} (h : ∀ j, 0 < p j + eps ∧ 0 < 1 - p j + eps)
    (he : 0 ≤ eps) (ω : Fin D → Bool) :
    Real.exp (flipLl eps p ω) = (1 + 2 * eps) ^ D * flipLaw (fun j => guardProb eps (p j)) ω := by
  have hpos : (0 : ℝ) < 1 + 2 * eps := by linarith
  unfold flipLl flipLaw
  have hc : (1 + 2 * eps) ^ D = ∏ _j : Fin D, (1 + 2 * eps) := by simp
  rw [Real.exp_sum, hc, ← Finset.prod_mul_distrib]
  refine Finset.prod_congr rfl fun j _ => ?_
  unfold guardProb
  cases ω j
  · simp only [Bool.false_eq_true, if_false, mul_zero, zero_add, sub_zero, mul_one]
    rw [Real.exp_log (h j).2]
    field_simp; ring
  · simp only [if_true, mul_one, sub_self, mul_zero, add_zero]
    rw [Real.exp_log (h j).1]
    field_simp

/-- Log acceptance ratio of a chain with per-site flip probabilities `p`. -/
noncomputable def flipLogAcc (eps : ℝ) (f : (Fin D → ℤ) → ℝ) (p : (Fin D → ℤ) → Fin D → ℝ)
    (x : Fin D → ℤ) (ω : Fin D → Bool) : ℝ :=
  f (flipSites x ω) + flipLl eps (p (flipSites x ω)) ω - f x - flipLl eps (p x) ω

theorem flip_pathMH {eps : ℝ} (he : 0 ≤ eps) (f : (Fin D → ℤ) → ℝ) {p : (Fin D → ℤ) → Fin D → ℝ}
    (hp : ∀ x j, 0 ≤ p x j ∧ p x j ≤ 1) (hpe : ∀ x j, 0 < p x j + eps ∧ 0 < 1 - p x j + eps) :
    PathMH (validStates 2 D) (fun x => Real.exp (f x))
      (fun x => flipLaw fun j => guardProb eps (p x j)) flipSites (fun _ ω => ω)
      (flipLogAcc eps f p) := by
  have hc : (0 : ℝ) < (1 + 2 * eps) ^ D := by positivity
  exact {
    pi_pos := fun _ _ => Real.exp_pos _
    prob := fun x _ => isProb_flipLaw fun j => guardProb_mem he (hp x j).1 (hp x j).2
    closed := fun x hx ω _ => flipSites_valid hx ω
    back := fun x _ ω _ _ => flipSites_back x ω
    invol := fun _ _ _ _ _ => rfl
    ratio := fun x _ ω _ _ => by
      have e1 := exp_flipLl (hpe x) he ω
      have e2 := exp_flipLl (hpe (flipSites x ω)) he ω
      have h1 := Real.exp_pos (flipLl eps (p x) ω)
      unfold flipLogAcc
      rw [Real.exp_sub, Real.exp_sub, Real.exp_add, e2]
      have h2 := Real.exp_pos (f x)
      rw [e1] at h1 ⊢
      have h3 : 0 < flipLaw (fun j => guardProb eps (p x j)) ω := by
        by_contra hn
        have := mul_nonpos_of_nonneg_of_nonpos hc.le (not_lt.1 hn)
        linarith
      field_simp
    antisymm := fun x _ ω _ _ => by
      unfold flipLogAcc
      rw [flipSites_back]; ring }

/-- A chain with per-site flips: the kernel is stochastic and nearly invariant, with an explicit bound
for the acceptance offset and for the guard. -/
theorem flip_nearlyInvariant {eps tiny : ℝ} (he : 0 ≤ eps) (ht : 0 ≤ tiny) {f : (Fin D → ℤ) → ℝ}
    {p : (Fin D → ℤ) → Fin D → ℝ} (hp : ∀ x j, 0 ≤ p x j ∧ p x j ≤ 1)
    (hpe : ∀ x j, 0 < p x j + eps ∧ 0 < 1 - p x j + eps)
    {stepf : (Fin D → ℤ) → (Fin D → Bool) → ℝ → (Fin D → ℤ)}
    (h : IsMHStep (validStates 2 D) tiny flipSites (flipLogAcc eps f p) stepf) :
    NearlyInvariant (validStates 2 D) (fun x => Real.exp (f x))
      (fun x y => lawU (flipLaw (p x)) (stepf x) y) (2 * tiny + 2 * D * eps) := by
  refine (flip_pathMH he f hp hpe).nearlyInvariant_step_close (q := fun x => flipLaw (p x)) ?_ ht h
  intro x _
  refine (flipLaw_close (hp x) fun j => guardProb_mem he (hp x j).1 (hp x j).2).trans ?_
  calc ∑ j, 2 * |p x j - guardProb eps (p x j)| ≤ ∑ _j : Fin D, 2 * eps :=
        Finset.sum_le_sum fun j _ => by
          have := guardProb_close he (hp x j).1 (hp x j).2; linarith
    _ = 2 * D * eps := by simp; ring

theorem flip_stochastic {tiny : ℝ} (ht : 0 ≤ tiny) {lacc : (Fin D → ℤ) → (Fin D → Bool) → ℝ}
    {p : (Fin D → ℤ) → Fin D → ℝ} (hp : ∀ x j, 0 ≤ p x j ∧ p x j ≤ 1)
    {stepf : (Fin D → ℤ) → (Fin D → Bool) → ℝ → (Fin D → ℤ)}
    (h : IsMHStep (validStates 2 D) tiny flipSites lacc stepf) :
    Stochastic (validStates 2 D) (fun x y => lawU (flipLaw (p x)) (stepf x) y) := by
  classical
  exact Stochastic.congr (h.lawU_eq ht fun x => flipLaw (p x))
    (stochastic_mhKernel (fun x _ => isProb_flipLaw (hp x)) (fun x hx ω _ => flipSites_valid hx ω)
    (fun _ _ => acceptProb_nonneg _ _) (fun _ _ => acceptProb_le_one _ _))

theorem flip_reversible {f : (Fin D → ℤ) → ℝ} {p : (Fin D → ℤ) → Fin D → ℝ}
    (hp : ∀ x j, 0 < p x j ∧ p x j < 1)
    {stepf : (Fin D → ℤ) → (Fin D → Bool) → ℝ → (Fin D → ℤ)}
    (h : IsMHStep (validStates 2 D) 0 flipSites (flipLogAcc 0 f p) stepf) :
    Reversible (validStates 2 D) (fun x => Real.exp (f x))
      (fun x y => lawU (flipLaw (p x)) (stepf x) y) := by
  have H := flip_pathMH le_rfl f (fun x j => ⟨(hp x j).1.le, (hp x j).2.le⟩)
    (fun x j => ⟨by linarith [(hp x j).1], by linarith [(hp x j).2]⟩)
  simp only [guardProb_zero] at H
  exact H.reversible_step h

/-! ## Categorical redraws -/

theorem isProb_pi {C : ℕ} {p : Fin D → Fin C → ℝ} (hp : ∀ j, IsProb (p j)) :
    IsProb fun v : Fin D → Fin C => ∏ j, p j (v j) := by
  refine ⟨fun v => Finset.prod_nonneg fun j _ => (hp j).1 _, ?_⟩
  rw [← Fintype.prod_sum (f := p)]
  exact Finset.prod_eq_one fun j _ => (hp j).2

theorem categRow_valid {C : ℕ} (v : Fin D → Fin C) : categRow v ∈ validStates C D := by
  rw [mem_validStates]
  intro j
  have := (v j).2
  unfold categRow
  exact ⟨by positivity, by exact_mod_cast this⟩

/-- The categories of a valid integer row. -/
def toCateg {C : ℕ} (hC : 0 < C) (x : Fin D → ℤ) : Fin D → Fin C :=
  fun j => ⟨(x j).toNat % C, Nat.mod_lt _ hC⟩

theorem categRow_toCateg {C : ℕ} (hC : 0 < C) {x : Fin D → ℤ} (hx : x ∈ validStates C D) :
    categRow (toCateg hC x) = x := by
  rw [mem_validStates] at hx
  funext j
  have := hx j
  show (((x j).toNat % C : ℕ) : ℤ) = x j
  rw [Nat.mod_eq_of_lt (by omega)]; omega

theorem toCateg_categRow {C : ℕ} (hC : 0 < C) (v : Fin D → Fin C) : toCateg hC (categRow v) = v := by
  funext j
  ext
  show (((v j : ℕ) : ℤ)).toNat % C = v j
  rw [Int.toNat_natCast, Nat.mod_eq_of_lt (v j).2]

theorem categLl_oneHot {C : ℕ} (dist : Fin D → Fin C → ℝ) (v : Fin D → Fin C) :
    categLl dist (oneHotRow C (categRow v)) = ∑ j, logSoftmax (dist j) (v j) := by
  unfold categLl
  refine Finset.sum_congr rfl fun j _ => ?_
  unfold oneHotRow oneHot categRow
  rw [Finset.sum_eq_single (v j)]
  · simp
  · intro c _ hc
    rw [if_neg, mul_zero]
    intro h; exact hc (Fin.ext (by exact_mod_cast h))
  · intro h; exact absurd (mem_univ _) h

/-- Log acceptance ratio of a chain redrawing every site from logits `dist`. -/
noncomputable def categLogAcc {C : ℕ} (f : (Fin D → Fin C → ℝ) → ℝ)
    (dist : (Fin D → ℤ) → Fin D → Fin C → ℝ) (x : Fin D → ℤ) (v : Fin D → Fin C) : ℝ :=
  f (oneHotRow C (categRow v)) + categLl (dist (categRow v)) (oneHotRow C x) - f (oneHotRow C x) -
    categLl (dist x) (oneHotRow C (categRow v))

theorem categ_pathMH {C : ℕ} (hC : 0 < C) (f : (Fin D → Fin C → ℝ) → ℝ)
    (dist : (Fin D → ℤ) → Fin D → Fin C → ℝ) :
    PathMH (validStates C D) (fun x => Real.exp (f (oneHotRow C x))) (fun x => categLaw (dist x))
      (fun _ v => categRow v) (fun x _ => toCateg hC x) (categLogAcc f dist) := by
  have : Nonempty (Fin C) := ⟨⟨0, hC⟩⟩
  have hq : ∀ x (v : Fin D → Fin C), categLaw (dist x) v =
      Real.exp (categLl (dist x) (oneHotRow C (categRow v))) := by
    intro x v
    rw [categLl_oneHot, Real.exp_sum]
    exact Finset.prod_congr rfl fun j _ => (exp_logSoftmax _ _).symm
  exact {
    pi_pos := fun _ _ => Real.exp_pos _
    prob := fun x _ => isProb_pi fun j => isProb_softmax _
    closed := fun x _ v _ => categRow_valid v
    back := fun x hx v _ _ => categRow_toCateg hC hx
    invol := fun x _ v _ _ => toCateg_categRow hC v
    ratio := fun x hx v _ _ => by
      rw [hq, hq, categRow_toCateg hC hx, ← Real.exp_add, ← Real.exp_add, ← Real.exp_add]
      congr 1
      unfold categLogAcc; ring
    antisymm := fun x hx v _ _ => by
      unfold categLogAcc
      rw [categRow_toCateg hC hx]; ring }

/-! ## A chain that never moves (NaN step size) -/

theorem lawU_const {X Ω : Type*} [Fintype Ω] [DecidableEq X] {p : Ω → ℝ} (hp : IsProb p) (x y : X) :
    lawU p (fun _ _ => x) y = if x = y then 1 else 0 := by
  unfold lawU
  by_cases h : x = y
  · simp only [h, and_true, if_true]
    rw [volume_unit]; simpa using hp.2
  · simp [h]

theorem stochastic_id {X : Type*} [DecidableEq X] (S : Finset X) :
    Stochastic S fun x y => if x = y then 1 else 0 := by
  refine ⟨fun x _ y => by dsimp only; split_ifs <;> norm_num, fun x hx => ?_, fun x hx y hy => ?_⟩
  · rw [Finset.sum_ite_eq, if_pos hx]
  · have h : x ≠ y := fun h => hy (h ▸ hx)
    exact if_neg h

theorem reversible_id {X : Type*} [DecidableEq X] (S : Finset X) (π : X → ℝ) :
    Reversible S π fun x y => if x = y then 1 else 0 := by
  intro x _ y _
  by_cases h : x = y
  · rw [h]
  · simp [h, Ne.symm h]

theorem nearlyInvariant_of_reversible {X : Type*} {S : Finset X} {π : X → ℝ} {K : X → X → ℝ}
    {ε : ℝ} (hε : 0 ≤ ε) (hπ : ∀ x ∈ S, 0 ≤ π x) (hs : Stochastic S K) (hr : Reversible S π K) :
    NearlyInvariant S π K ε := by
  unfold NearlyInvariant
  have h := invariant_of_reversible hr hs
  rw [Finset.sum_eq_zero]
  · exact mul_nonneg hε (Finset.sum_nonneg hπ)
  · intro y hy
    rw [h y hy, sub_self, abs_zero]

end Discs
