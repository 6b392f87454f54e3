import Verif.Lemmas.Doeblin
import Verif.Lemmas.Jax

/-!
# Lower bounds for runs that rewrite a few coordinates at a time
-/

namespace Discs.Spec

open Finset

/-- If step `t < m` rewrites the coordinates in `T t` to any values with probability at least `c`, and the `T t`
cover all coordinates, then every state is reached in `m` steps with probability at least `c ^ m`. -/
theorem iterate_ge_of_touch {ι V : Type*} [DecidableEq (ι → V)] {S : Finset (ι → V)}
    {K : ℕ → (ι → V) → (ι → V) → ℝ} {m : ℕ} (hK : ∀ t, Stochastic S (K t)) (T : ℕ → Set ι) {c : ℝ} (hc : 0 ≤ c)
    (hge : ∀ t < m, ∀ x ∈ S, ∀ y ∈ S, (∀ j, j ∉ T t → y j = x j) → c ≤ K t x y)
    (hmix : ∀ x ∈ S, ∀ y ∈ S, ∀ z : ι → V, (∀ j, z j = x j ∨ z j = y j) → z ∈ S)
    (hcov : ∀ j, ∃ i < m, j ∈ T i) : ∀ x ∈ S, ∀ y ∈ S, c ^ m ≤ iterate S K m x y := by
  classical
  intro x hx y hy
  let z : ℕ → ι → V := fun n j => if ∃ i < n, j ∈ T i then y j else x j
  have hzS : ∀ n, z n ∈ S := fun n => hmix x hx y hy _ fun j => by
    dsimp only [z]; split_ifs; exacts [Or.inr rfl, Or.inl rfl]
  have key : ∀ n ≤ m, c ^ n ≤ iterate S K n x (z n) := by
    intro n
    induction n with
    | zero =>
      have : z 0 = x := by funext j; simp [z]
      rw [this]; simp [iterate]
    | succ n ih =>
      intro hn
      have hs := stochastic_iterate hK n
      refine le_trans ?_ (Finset.single_le_sum
        (f := fun w => iterate S K n x w * K n w (z (n + 1)))
        (fun w hw => mul_nonneg (hs.1 x hx w) ((hK n).1 w hw _)) (hzS n))
      rw [pow_succ]
      refine mul_le_mul (ih (by omega)) (hge n (by omega) _ (hzS n) _ (hzS (n + 1)) fun j hj => ?_) hc
        (hs.1 x hx _)
      dsimp only [z]
      refine if_congr ?_ rfl rfl
      constructor
      · rintro ⟨i, hi, hji⟩
        rcases Nat.lt_succ_iff_lt_or_eq.1 hi with h | rfl
        · exact ⟨i, h, hji⟩
        · exact absurd hji hj
      · rintro ⟨i, hi, hji⟩; exact ⟨i, by omega, hji⟩
  have : z m = y := by funext j; exact if_pos (hcov j)
  rw [← this]; exact key m le_rfl

theorem law_ge {Ω X : Type*} [Fintype Ω] [DecidableEq X] {p : Ω → ℝ} (hp : ∀ ω, 0 ≤ p ω) (f : Ω → X) (ω₀ : Ω) :
    p ω₀ ≤ law p f (f ω₀) := by
  have := Finset.single_le_sum (f := fun ω => if f ω = f ω₀ then p ω else 0)
    (fun ω _ => by split_ifs; exacts [hp ω, le_rfl]) (mem_univ ω₀)
  simpa [law] using this

end Discs.Spec

namespace Discs

/-- A category whose score is at most `r` below the largest has at least the probability `exp (-r) / n`. -/
theorem softmax_ge {Ω : Type*} [Fintype Ω] (l : Ω → ℝ) {r : ℝ} (ω : Ω) (h : ∀ ω', l ω' - l ω ≤ r) :
    Real.exp (-r) / Fintype.card Ω ≤ softmax l ω := by
  have : Nonempty Ω := ⟨ω⟩
  unfold softmax
  rw [div_le_div_iff₀ (by exact_mod_cast Fintype.card_pos) (sum_exp_pos l), Finset.mul_sum]
  calc ∑ i, Real.exp (-r) * Real.exp (l i) ≤ ∑ _i : Ω, Real.exp (l ω) :=
        Finset.sum_le_sum fun i _ => by
          rw [← Real.exp_add]; exact Real.exp_le_exp.2 (by linarith [h i])
    _ = _ := by simp [mul_comm]

end Discs
