import Verif.Model.LBStep
import Verif.Lemmas.Markov
import Verif.Props.LocallyBalanced

/-!
# Properties C05 (plain locally-balanced sampler), C56, C57

`LocallyBalancedSampler.step` is a jump chain without acceptance test.
-/

namespace Discs

open Finset Spec

variable {B D : ℕ}

theorem applyWeightLog_isOk (name : String) (t t' : ℝ) :
    (∃ v, applyWeightLog name t = .ok v) ↔ ∃ v, applyWeightLog name t' = .ok v := by
  unfold applyWeightLog
  split_ifs <;> simp

/-- C57: the step returns a result exactly when the model's neighbourhood function returns four values
with a callable last one, and the weight function is one of the four known ones; then the chain moves to
the drawn neighbour, unconditionally. -/
theorem lbStep_ok_iff (name : String) (m : LBIface D) (x : Fin B → Fin D → ℤ) (idx : Fin B → Fin D)
    (s : LBPlainState) (r : (Fin B → Fin D → ℤ) × LBPlainState) :
    lbStep name m x idx s = .ok r ↔
      (name = "SQRT" ∨ name = "RATIO" ∨ name = "MAX" ∨ name = "MIN") ∧
      ∃ lr calls fn, m = .quad lr calls (some fn) ∧ (∀ b, r.1 b = fn (x b) (idx b)) ∧
        r.2.numLlCalls = s.numLlCalls + calls ∧ r.2.steps = none := by
  have hname : ∀ e, applyWeightLog name 0 = .error e →
      ¬ (name = "SQRT" ∨ name = "RATIO" ∨ name = "MAX" ∨ name = "MIN") := by
    intro e he hn
    unfold applyWeightLog at he
    rcases hn with rfl | rfl | rfl | rfl <;> simp at he
  have hname' : ∀ v, applyWeightLog name 0 = .ok v →
      (name = "SQRT" ∨ name = "RATIO" ∨ name = "MAX" ∨ name = "MIN") := by
    intro v hv
    unfold applyWeightLog at hv
    split_ifs at hv <;> simp_all
  unfold lbStep
  cases m with
  | absent => simp
  | triple => simp
  | quad lr calls nb =>
    dsimp only
    cases hw : applyWeightLog name 0 with
    | error e => simpa using fun h => absurd h (hname e hw)
    | ok v =>
      cases nb with
      | none => simp
      | some fn =>
        obtain ⟨r1, r2, r3⟩ := r
        constructor
        · intro h
          injection h with h
          injection h with h1 h2
          injection h2 with h2 h3
          subst h1 h2 h3
          exact ⟨hname' v hw, lr, calls, fn, rfl, fun _ => rfl, rfl, rfl⟩
        · rintro ⟨-, lr', calls', fn', heq, h1, h2, h3⟩
          injection heq with e1 e2 e3
          injection e3 with e3
          subst e2 e3
          dsimp only at h1 h2 h3
          subst h2 h3
          rw [funext h1]

/-- C57: the experiment driver cannot use the plain sampler: every step raises. -/
theorem lbDriverStep_raises (name : String) (m : LBIface D) (x : Fin B → Fin D → ℤ)
    (idx : Fin B → Fin D) (s : LBPlainState) : ∃ e, lbDriverStep name m x idx s = .error e := by
  unfold lbDriverStep
  cases lbStep name m x idx s <;> exact ⟨_, rfl⟩

/-- C05 fails for the plain locally-balanced sampler: the step counter is dropped from the state. -/
theorem lb_steps_dropped (name : String) (m : LBIface D) (x : Fin B → Fin D → ℤ) (idx : Fin B → Fin D)
    (s : LBPlainState) (r : (Fin B → Fin D → ℤ) × LBPlainState) (hr : lbStep name m x idx s = .ok r) :
    r.2.steps = none := by
  obtain ⟨-, _, _, _, -, -, -, h⟩ := (lbStep_ok_iff name m x idx s r).1 hr
  exact h

/-- Instance: on a 4-tuple model with `SQRT` weights the step flips the drawn site. -/
example (lr : (Fin 2 → ℤ) → Fin 2 → ℝ) :
    lbStep "SQRT" (.quad lr 1 (some flipAt)) (fun _ : Fin 1 => ![0, 1]) (fun _ => 1) lbPlainInit =
      .ok (fun _ => ![0, 0], ⟨1, none⟩) := by
  rw [lbStep_ok_iff]
  refine ⟨Or.inl rfl, lr, 1, flipAt, rfl, ?_, rfl, rfl⟩
  intro b
  funext j
  fin_cases j <;> rfl

/-! ## C56: what the jump chain leaves invariant -/

theorem flipAt_flipAt (x : Fin D → ℤ) (i : Fin D) : flipAt (flipAt x i) i = x := by
  funext j
  unfold flipAt
  split_ifs <;> ring

theorem flipAt_valid {x : Fin D → ℤ} (hx : x ∈ validStates 2 D) (i : Fin D) :
    flipAt x i ∈ validStates 2 D := by
  rw [mem_validStates_two] at hx ⊢
  intro j
  unfold flipAt
  split_ifs
  · rcases hx j with h | h <;> simp [h]
  · exact hx j

theorem lbKernel_eq {name : String}
    (hn : name = "SQRT" ∨ name = "RATIO" ∨ name = "MAX" ∨ name = "MIN") (h : ℝ → ℝ)
    (lr : (Fin D → ℤ) → Fin D → ℝ) (x y : Fin D → ℤ) :
    lbKernel name h lr x y = Spec.law (lbDrawLaw h lr x) (flipAt x) y := by
  unfold lbKernel Spec.law
  refine sum_congr rfl fun i _ => ?_
  have : lbStep name (.quad lr 1 (some flipAt)) (fun _ : Fin 1 => x) (fun _ => i) lbPlainInit =
      .ok (fun _ => flipAt x i, ⟨lbPlainInit.numLlCalls + 1, none⟩) := by
    rw [lbStep_ok_iff]
    exact ⟨hn, lr, 1, flipAt, rfl, fun _ => rfl, rfl, rfl⟩
  refine if_congr ?_ rfl rfl
  dsimp only
  rw [this]
  simp [Except.toOption]

/-- C56 (kernel): on valid samples the plain step is a probability kernel. -/
theorem lb_stochastic [NeZero D] {name : String}
    (hn : name = "SQRT" ∨ name = "RATIO" ∨ name = "MAX" ∨ name = "MIN") (h : ℝ → ℝ)
    (lr : (Fin D → ℤ) → Fin D → ℝ) : Stochastic (validStates 2 D) (lbKernel name h lr) := by
  have := stochastic_law (S := validStates 2 D) (p := lbDrawLaw h lr) (f := flipAt)
    (fun x _ => isProb_softmax _) (fun x hx i => flipAt_valid hx i)
  refine ⟨fun x hx y => ?_, fun x hx => ?_, fun x hx y hy => ?_⟩
  · rw [lbKernel_eq hn]; exact this.1 x hx y
  · simp only [lbKernel_eq hn]; exact this.2.1 x hx
  · rw [lbKernel_eq hn]; exact this.2.2 x hx y hy

/-- C56: with exact log-ratios and a balanced weight function (`h s = s + h (-s)`), the plain sampler
satisfies detailed balance with respect to `exp(f) * Z`, where `Z x` is the total weight of the neighbours
of `x`: the target is distorted by the factor `Z`. -/
theorem lb_reversible_tilted {name : String}
    (hn : name = "SQRT" ∨ name = "RATIO" ∨ name = "MAX" ∨ name = "MIN") (h : ℝ → ℝ)
    (hh : ∀ t, h t = t + h (-t)) (f : (Fin D → ℤ) → ℝ) (lr : (Fin D → ℤ) → Fin D → ℝ)
    (hlr : ∀ x ∈ validStates 2 D, ∀ i, lr x i = f (flipAt x i) - f x) :
    Reversible (validStates 2 D) (fun x => Real.exp (f x) * ∑ i, Real.exp (h (lr x i)))
      (lbKernel name h lr) := by
  intro x hx y hy
  rw [lbKernel_eq hn, lbKernel_eq hn]
  unfold Spec.law
  rw [mul_sum, mul_sum]
  refine sum_congr rfl fun i _ => ?_
  have hiff : flipAt x i = y ↔ flipAt y i = x := by
    constructor
    · intro e; rw [← e, flipAt_flipAt]
    · intro e; rw [← e, flipAt_flipAt]
  by_cases e : flipAt x i = y
  · rw [if_pos e, if_pos (hiff.1 e)]
    unfold lbDrawLaw softmax
    have hne : Nonempty (Fin D) := ⟨i⟩
    have p1 : 0 < ∑ i, Real.exp (h (lr x i)) := sum_exp_pos _
    have p2 : 0 < ∑ i, Real.exp (h (lr y i)) := sum_exp_pos _
    rw [mul_assoc, mul_div_cancel₀ _ p1.ne', mul_assoc, mul_div_cancel₀ _ p2.ne', ← Real.exp_add,
      ← Real.exp_add]
    dsimp only
    rw [hlr x hx, hlr y hy, e, hiff.1 e, hh (f y - f x), neg_sub]
    congr 1
    ring
  · rw [if_neg e, if_neg fun e' => e (hiff.2 e'), mul_zero, mul_zero]

/-- C56 (the target itself is not preserved): with one site the plain sampler leaves `exp f` invariant
only if `f` is constant, whatever the weight function. -/
theorem lb_invariant_iff {name : String}
    (hn : name = "SQRT" ∨ name = "RATIO" ∨ name = "MAX" ∨ name = "MIN") (h : ℝ → ℝ)
    (f : (Fin 1 → ℤ) → ℝ) (lr : (Fin 1 → ℤ) → Fin 1 → ℝ) :
    Invariant (validStates 2 1) (fun x => Real.exp (f x)) (lbKernel name h lr) ↔
      f (fun _ => 0) = f (fun _ => 1) := by
  have hS : validStates 2 1 = {fun _ => 0, fun _ => 1} := by
    ext x
    rw [mem_validStates_two, mem_insert, mem_singleton]
    constructor
    · intro hx
      rcases hx 0 with h0 | h0
      · left; funext j; rw [Subsingleton.elim j 0, h0]
      · right; funext j; rw [Subsingleton.elim j 0, h0]
    · rintro (rfl | rfl) j
      · exact Or.inl rfl
      · exact Or.inr rfl
  have hne : (fun _ : Fin 1 => (0 : ℤ)) ≠ fun _ => 1 := fun e => by simpa using congrFun e 0
  have hK : ∀ x y, lbKernel name h lr x y = if flipAt x 0 = y then 1 else 0 := by
    intro x y
    rw [lbKernel_eq hn]
    unfold Spec.law
    rw [Fin.sum_univ_one]
    have : lbDrawLaw h lr x 0 = 1 := by
      unfold lbDrawLaw softmax
      rw [Fin.sum_univ_one, div_self (Real.exp_pos _).ne']
    rw [this]
  have h01 : flipAt (fun _ : Fin 1 => (0 : ℤ)) 0 = fun _ => 1 := by
    funext j; simp [flipAt, Subsingleton.elim j 0]
  have h10 : flipAt (fun _ : Fin 1 => (1 : ℤ)) 0 = fun _ => 0 := by
    funext j; simp [flipAt, Subsingleton.elim j 0]
  unfold Invariant
  rw [hS]
  simp only [hK, sum_pair hne, mem_insert, mem_singleton, forall_eq_or_imp, forall_eq, h01, h10, hne,
    hne.symm, if_true, if_false, mul_one, mul_zero, zero_add, add_zero, Real.exp_eq_exp]
  constructor
  · exact fun h => h.2
  · exact fun h => ⟨h.symm, h⟩

/-- Instance for `lb_reversible_tilted`: `SQRT` weights are balanced. -/
example : ∀ t : ℝ, t / 2 = t + -t / 2 := fun t => by ring

end Discs
