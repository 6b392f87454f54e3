import Verif.Lemmas.TrapBatch
import Verif.Props.Trap

/-!
# Property C114, several chains

The chains of a batch share one radius (`randomwalk.py:63-74`).  Draws that change all sites of every chain, or no site
of any, make the radius grow; a batch gets to the upper end with positive probability from every state, whatever the
temperature, and then stays there.
-/

namespace Discs

open Finset Spec

variable {B D : ℕ}

/-- **C114 is false of the code, any number of chains.** Symmetric energies that may change from step to step, any
start, any number of steps, any acceptance noise: with a probability that does not depend on the length of the run,
every sample of every chain is the start of that chain or its complement. -/
theorem rw_batch_caught (hB : 0 < B) (hD : 0 < D) {t tiny : ℝ} (ht : t ≤ 1) {f : ℕ → (Fin D → ℤ) → ℝ}
    (hs : ∀ k, FlipSymmetric (f k)) (u : ℕ → Fin B → ℝ) {N : ℕ} (hN : (D : ℝ) ≤ 1 + N * (1 - t)) (s : RWState)
    (h0 : 1 ≤ s.radius) (h1 : s.radius ≤ D) {x : Fin B → Fin D → ℤ} (hx : ∀ b, x b ∈ validStates 2 D) (L : ℕ) :
    (1 / 2 : ℝ) ^ (D * B * N) ≤ drawExpect rwBatchLaws (rwBatchMove t tiny f u)
      (indic fun path => ∀ y ∈ path, ∀ b, y b = x b ∨ y b = complement (x b)) L 0 s [] x := by
  have := rwBatch_climb (Φ := indic fun path : List (Fin B → Fin D → ℤ) => ∀ y ∈ path, ∀ b, y b = x b ∨ y b = complement (x b)) (tiny := tiny)
    (u := u) hB hD ht hs zero_le_one (indic_nonneg _) N L 0 s h0 h1 (by linarith) [] x hx
    fun l hl => (indic_of (P := fun path : List (Fin B → Fin D → ℤ) => ∀ y ∈ path, ∀ b, y b = x b ∨ y b = complement (x b)) hl).ge
  rw [pow_mul, pow_mul]
  simpa using this

/-- **C114 is false of the code, any number of chains.** After `m * N` steps the probability that every chain of the
batch only ever sees one sample and its complement from then on is at least `1 - (1 - 2 ^ (-D B N)) ^ m`, which tends to
`1` with `m`: a batch is caught almost surely, on cold models too. -/
theorem rw_batch_stuck (hB : 0 < B) (hD : 0 < D) {t tiny : ℝ} (ht : t ≤ 1) {f : ℕ → (Fin D → ℤ) → ℝ}
    (hs : ∀ k, FlipSymmetric (f k)) (u : ℕ → Fin B → ℝ) {N : ℕ} (hN : (D : ℝ) ≤ 1 + N * (1 - t)) (s : RWState)
    (h0 : 1 ≤ s.radius) (h1 : s.radius ≤ D) {x : Fin B → Fin D → ℤ} (hx : ∀ b, x b ∈ validStates 2 D) (m L : ℕ)
    (hL : m * N ≤ L) :
    1 - (1 - (1 / 2 : ℝ) ^ (D * B * N)) ^ m ≤ drawExpect rwBatchLaws (rwBatchMove t tiny f u)
      (indic (BatchStuckFrom (m * N))) L 0 s [] x := by
  rw [pow_mul _ (D * B) N, pow_mul]
  exact rwBatch_stuck hB hD ht hs hN (m * N) m L 0 s h0 h1 [] x hx (by simp) (by simpa using hL)

/-- **C114 is false of the code, search for a maximum cut with several chains.** If no chain starts at a maximum cut,
then, whatever the cooling schedule, the acceptance noise and the length of the run, the probability that no chain ever
sees a maximum cut is at least `2 ^ (-D B N)`. -/
theorem rw_batch_maxcut_misses {n e : ℕ} (hB : 0 < B) (A : EdgeArrays n e) (temp : ℕ → ℝ) {t tiny : ℝ} (ht : t ≤ 1)
    (u : ℕ → Fin B → ℝ) {N : ℕ} (hN : ((n + 1 : ℕ) : ℝ) ≤ 1 + N * (1 - t)) (s : RWState) (h0 : 1 ≤ s.radius)
    (h1 : s.radius ≤ ((n + 1 : ℕ) : ℝ)) {x : Fin B → Fin (n + 1) → ℤ} (hx : ∀ b, x b ∈ validStates 2 (n + 1))
    (hno : ∀ b, x b ∉ optima (validStates 2 (n + 1)) fun x => maxcutObjective A fun j => (x j : ℝ)) (L : ℕ) :
    (1 / 2 : ℝ) ^ ((n + 1) * B * N) ≤ drawExpect rwBatchLaws
      (rwBatchMove t tiny (annealEnergy (fun x => maxcutObjective A fun j => (x j : ℝ)) noPenalty temp) u)
      (indic fun path => ∀ y ∈ path, ∀ b,
        y b ∉ optima (validStates 2 (n + 1)) fun x => maxcutObjective A fun j => (x j : ℝ)) L 0 s [] x := by
  classical
  have hsym : ∀ x : Fin (n + 1) → ℤ,
      maxcutObjective A (fun j => ((complement x j : ℤ) : ℝ)) = maxcutObjective A fun j => (x j : ℝ) := by
    intro x
    have := maxcut_flipSymmetric A (fun _ => 1) 0 x
    simpa [annealEnergy, combForward, noPenalty] using this
  have hno' : ∀ b, complement (x b) ∉ optima (validStates 2 (n + 1)) fun x => maxcutObjective A fun j => (x j : ℝ) := by
    intro b hc
    refine hno b ?_
    rw [optima, mem_filter] at hc ⊢
    refine ⟨hx b, fun y hy => ?_⟩
    have := hc.2 y hy
    simp only [hsym] at this
    exact this
  have := rwBatch_climb (D := n + 1) (Φ := indic fun path => ∀ y ∈ path, ∀ b,
      y b ∉ optima (validStates 2 (n + 1)) fun x => maxcutObjective A fun j => (x j : ℝ)) (tiny := tiny) (b := 0) (v := 1)
    (u := u) hB (Nat.succ_pos n) ht (maxcut_flipSymmetric A temp) zero_le_one (indic_nonneg _) N L 0 s h0 h1
    (by linarith) [] x hx fun l hl => (indic_of fun y hy b => by
      rcases hl y hy b with e | e <;> rw [e]
      · exact hno b
      · exact hno' b).ge
  rw [pow_mul, pow_mul]
  simpa using this

/-- Two chains on the path graph, both from zeros, radius one, any temperatures and noise. -/
example (temp : ℕ → ℝ) (u : ℕ → Fin 2 → ℝ) (L : ℕ) :
    (1 / 2 : ℝ) ^ (3 * 2 * 3) ≤ drawExpect rwBatchLaws
      (rwBatchMove (1 / 4) mhTiny
        (annealEnergy (fun x => maxcutObjective pathGraph fun j => (x j : ℝ)) noPenalty temp) u)
      (indic fun path => ∀ y ∈ path, ∀ b,
        y b ∉ optima (validStates 2 3) fun x => maxcutObjective pathGraph fun j => (x j : ℝ))
      L 0 ⟨0, 0, 1, none⟩ [] (fun _ _ => 0) := by
  refine rw_batch_maxcut_misses (by norm_num) pathGraph temp (by norm_num) u (by norm_num) _ le_rfl (by norm_num)
    (fun _ => mem_validStates_two.2 fun _ => Or.inl rfl) (fun b hc => ?_) L
  classical
  rw [optima, mem_filter] at hc
  have := hc.2 (fun j => if j = 1 then 1 else 0) (mem_validStates_two.2 fun j => by split_ifs <;> simp)
  simp [maxcutObjective, pathGraph, Fin.sum_univ_two] at this
  norm_num at this

end Discs
