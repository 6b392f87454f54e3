import Verif.Lemmas.Gibbs

/-!
# Properties C01, C02: the Gibbs sampler
-/

namespace Discs

open Finset Spec

variable {D : ℕ}

/-- C01 (kernel): the Gibbs step is a probability kernel on valid samples. -/
theorem gibbs_stochastic (f : (Fin D → ℤ) → ℝ) {C : ℕ} (hC : 0 < C) (s : GibbsState) :
    Stochastic (validStates C D) (gibbsKernel f C s) := by
  have : NeZero C := ⟨hC.ne'⟩
  exact stochastic_law (fun x _ => isProb_softmax _) fun x _ k => addAtMod_valid hC x _ _

/-- C01 (detailed balance): whatever coordinate the state points at, the Gibbs step is reversible
with respect to `exp ∘ forward` on valid samples. -/
theorem gibbs_reversible (f : (Fin D → ℤ) → ℝ) {C : ℕ} (hC : 0 < C) (s : GibbsState) :
    Reversible (validStates C D) (fun x => Real.exp (f x)) (gibbsKernel f C s) := by
  have : NeZero C := ⟨hC.ne'⟩
  have key := reversible_of_fiber (S := validStates C D) (w := fun x => Real.exp (f x))
    (fun x (k : Fin C) => addAtMod C x s.index ((k : ℕ) : ℤ)) ?_ ?_
  · intro x hx y hy
    have hsc : ∀ z ∈ validStates C D, ∀ k, gibbsScores f C z s.index k =
        f (addAtMod C z s.index ((k : ℕ) : ℤ)) := by
      intro z hz k
      unfold gibbsScores
      split_ifs with h
      · rw [h]; simp [addAtMod_zero hz]
      · rfl
    have hk : ∀ z ∈ validStates C D, ∀ w, gibbsKernel f C s z w = law (fun k : Fin C =>
        Real.exp (f (addAtMod C z s.index ((k : ℕ) : ℤ))) /
          ∑ k' : Fin C, Real.exp (f (addAtMod C z s.index ((k' : ℕ) : ℤ))))
        (fun k => addAtMod C z s.index ((k : ℕ) : ℤ)) w := by
      intro z hz w
      unfold gibbsKernel gibbsDraw gibbsStep softmax
      simp only [hsc z hz]
    simp only [hk x hx, hk y hy]
    exact key x hx y hy
  · intro x hx k₀ _ F
    rw [← Equiv.sum_comp (Equiv.addLeft k₀) (fun k => F (addAtMod C x s.index ((k : ℕ) : ℤ)))]
    refine Finset.sum_congr rfl fun k _ => ?_
    rw [Equiv.coe_addLeft, addAtMod_fin_add]
  · intro x hx k₀ h₀
    simp only [addAtMod_eq_self_iff hx, addAtMod_eq_self_iff h₀]

/-- C01 (invariance along a run): running any number of Gibbs steps from any sampler state, with the
coordinate advancing as the code advances it, leaves the target invariant. -/
theorem gibbs_invariant_run (f : (Fin D → ℤ) → ℝ) {C : ℕ} (hC : 0 < C) (s : GibbsState) (n : ℕ) :
    Invariant (validStates C D) (fun x => Real.exp (f x))
      (iterate (validStates C D) (fun t => gibbsKernel f C ((gibbsUpdate C D)^[t] s)) n) :=
  invariant_iterate (fun _ => invariant_of_reversible (gibbs_reversible f hC _)
    (gibbs_stochastic f hC _)) n

/-- Non-trivial instance for C01: three sites, three categories, a log-likelihood that is not
constant; the states `(0,1,2)` and `(0,0,2)` are connected with positive probability when the
sampler points at site 1, and the kernel is not symmetric. -/
example : ∃ f : (Fin 3 → ℤ) → ℝ, (![0, 1, 2] : Fin 3 → ℤ) ∈ validStates 3 3 ∧
    (![0, 0, 2] : Fin 3 → ℤ) ∈ validStates 3 3 ∧
    addAtMod 3 (![0, 1, 2] : Fin 3 → ℤ) 1 2 = ![0, 0, 2] ∧
    f ![0, 1, 2] ≠ f ![0, 0, 2] := by
  refine ⟨fun x => x 1, ?_, ?_, ?_, ?_⟩
  · rw [mem_validStates]; decide
  · rw [mem_validStates]; decide
  · decide
  · simp

/-- Sampler state after `t` steps from the initial state. -/
theorem gibbs_state_iterate {C : ℕ} (t : ℕ) :
    (gibbsUpdate C D)^[t] gibbsInit = ⟨t, t * C, t % D⟩ := by
  induction t with
  | zero => simp [gibbsInit]
  | succ t ih =>
    rw [Function.iterate_succ_apply', ih]
    simp only [gibbsUpdate, GibbsState.mk.injEq, true_and]
    exact ⟨by ring, by rw [Nat.mod_add_mod]⟩

/-- C02 (counters): after any run of `t` steps from the initial state, `steps = t`,
`num_ll_calls = t * num_categories` and the next coordinate is `t mod dim`. -/
theorem gibbs_run_state {B C : ℕ} (draws : List (Fin B → Fin C))
    (x : Fin B → Fin D → ℤ) :
    (gibbsRun C draws x gibbsInit).2 =
      ⟨draws.length, draws.length * C, draws.length % D⟩ := by
  have h : ∀ (l : List (Fin B → Fin C)) (x : Fin B → Fin D → ℤ) (s : GibbsState),
      (gibbsRun C l x s).2 = (gibbsUpdate C D)^[l.length] s := by
    intro l
    induction l with
    | nil => intro x s; rfl
    | cons d l ih => intro x s; exact ih _ _
  rw [h, gibbs_state_iterate]

/-- C02 (one coordinate): the step taken after the draws `ds` (so at time `t = ds.length`) leaves
every coordinate other than `t mod dim` of every chain as it was, and the value at `t mod dim` is the
old one shifted by the drawn change modulo `num_categories`. -/
theorem gibbs_run_touches {B C : ℕ} (ds : List (Fin B → Fin C)) (d : Fin B → Fin C)
    (x : Fin B → Fin D → ℤ) (hx : ∀ b, x b ∈ validStates C D) (b : Fin B) (j : Fin D) :
    (gibbsRun C (ds ++ [d]) x gibbsInit).1 b j =
      if (j : ℕ) = ds.length % D
      then ((gibbsRun C ds x gibbsInit).1 b j + ((d b : ℕ) : ℤ)) % C
      else (gibbsRun C ds x gibbsInit).1 b j := by
  have hval : ∀ (l : List (Fin B → Fin C)) (s : GibbsState) (x : Fin B → Fin D → ℤ),
      (∀ b, x b ∈ validStates C D) → ∀ b, (gibbsRun C l x s).1 b ∈ validStates C D := by
    intro l
    induction l with
    | nil => intro s x hx; exact hx
    | cons e l ih =>
      intro s x hx
      exact ih _ _ fun b => addAtMod_valid (Nat.pos_of_ne_zero fun h => by
        have := (e b).2; omega) _ _ _
  have happ : gibbsRun C (ds ++ [d]) x gibbsInit =
      let r := gibbsStep C (gibbsRun C ds x gibbsInit).1 d (gibbsRun C ds x gibbsInit).2
      (r.1, r.2.1) := by
    unfold gibbsRun; rw [List.foldl_append]; rfl
  rw [happ]
  simp only [gibbsStep]
  rw [gibbs_run_state]
  have hv := hval ds gibbsInit x hx b
  split_ifs with h
  · simp only [addAtMod, h, if_true]
  · exact addAtMod_other hv _ h

/-- C02 (range): after at least one step every value of every chain is in `[0, num_categories)`, even
if the starting sample was not. -/
theorem gibbs_run_valid {B C : ℕ} (d : Fin B → Fin C) (ds : List (Fin B → Fin C))
    (x : Fin B → Fin D → ℤ) (s : GibbsState) (b : Fin B) (j : Fin D) :
    0 ≤ (gibbsRun C (ds ++ [d]) x s).1 b j ∧ (gibbsRun C (ds ++ [d]) x s).1 b j < C := by
  have hC : 0 < C := Nat.pos_of_ne_zero fun h => by have := (d b).2; omega
  have happ : (gibbsRun C (ds ++ [d]) x s).1 b =
      addAtMod C ((gibbsRun C ds x s).1 b) (gibbsRun C ds x s).2.index (d b : ℕ) := by
    unfold gibbsRun; rw [List.foldl_append]; rfl
  rw [happ]
  exact mem_validStates.1 (addAtMod_valid hC _ _ _) j

/-- C02 (sweep): in any `dim` consecutive steps each coordinate is the current one exactly once. -/
theorem gibbs_sweep {C : ℕ} (t₀ : ℕ) (i : Fin D) :
    ∃! t, t₀ ≤ t ∧ t < t₀ + D ∧ ((gibbsUpdate C D)^[t] gibbsInit).index = i := by
  have hD : 0 < D := i.pos
  simp only [gibbs_state_iterate]
  have hi := i.2
  have h0 := Nat.mod_lt t₀ hD
  have hdm := Nat.div_add_mod t₀ D
  by_cases h : t₀ % D ≤ i
  · refine ⟨t₀ + (i - t₀ % D), ⟨by omega, by omega, ?_⟩, ?_⟩
    · have : t₀ + (↑i - t₀ % D) = ↑i + D * (t₀ / D) := by omega
      rw [this, Nat.add_mul_mod_self_left, Nat.mod_eq_of_lt hi]
    · rintro t ⟨h1, h2, h3⟩
      have hdt := Nat.div_add_mod t D
      have : t / D = t₀ / D := by
        rw [h3] at hdt
        have a1 : D * (t / D) < D * (t₀ / D) + D := by omega
        have a2 : D * (t₀ / D) < D * (t / D) + D := by omega
        rw [← Nat.mul_succ] at a1 a2
        have b1 := Nat.lt_of_mul_lt_mul_left a1
        have b2 := Nat.lt_of_mul_lt_mul_left a2
        omega
      rw [this] at hdt; omega
  · refine ⟨t₀ + (D + i - t₀ % D), ⟨by omega, by omega, ?_⟩, ?_⟩
    · have : t₀ + (D + ↑i - t₀ % D) = ↑i + D * (t₀ / D + 1) := by rw [Nat.mul_succ]; omega
      rw [this, Nat.add_mul_mod_self_left, Nat.mod_eq_of_lt hi]
    · rintro t ⟨h1, h2, h3⟩
      have hdt := Nat.div_add_mod t D
      have : t / D = t₀ / D + 1 := by
        rw [h3] at hdt
        have a1 : D * (t₀ / D) < D * (t / D) := by omega
        have a2 : D * (t / D) < D * (t₀ / D) + D + D := by omega
        rw [← Nat.mul_succ, ← Nat.mul_succ] at a2
        have b1 := Nat.lt_of_mul_lt_mul_left a1
        have b2 := Nat.lt_of_mul_lt_mul_left a2
        omega
      rw [this, Nat.mul_succ] at hdt; omega

/-- Instance for C02: a run of four steps on two chains with three binary sites. -/
example : (gibbsRun (B := 2) (D := 3) 2 [![1, 0], ![1, 1], ![0, 1], ![1, 0]]
    ![![0, 1, 0], ![1, 1, 1]] gibbsInit) =
    (![![0, 0, 0], ![1, 0, 0]], ⟨4, 8, 1⟩) := by decide

end Discs
