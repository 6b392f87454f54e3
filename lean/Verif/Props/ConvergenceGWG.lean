import Verif.Lemmas.Walks
import Verif.Props.Convergence
import Verif.Props.GWG

/-!
# Property C72 for the GWG samplers

One flip per step can alternate between two halves of the state space (C73).  With at least two flips
per step, or with at least three categories, it cannot: the number of steps between two states is then
not tied to a parity, and the chain converges.
-/

namespace Discs

open Finset Spec

variable {D : ℕ}

/-- The two states differ in one or in two sites. -/
def nearMove (x y : Fin D → ℤ) : Prop :=
  (∃ i, y i ≠ x i ∧ ∀ j, j ≠ i → y j = x j) ∨
    ∃ i i', i ≠ i' ∧ y i ≠ x i ∧ y i' ≠ x i' ∧ ∀ j, j ≠ i → j ≠ i' → y j = x j

theorem nearMove_walk (hD : 2 ≤ D) : ∀ x ∈ validStates 2 D, ∀ y ∈ validStates 2 D,
    Walk (validStates 2 D) nearMove (D + 2) x y := by
  have hloop : ∀ x ∈ validStates 2 D, ∀ n, 2 ≤ n → Walk (validStates 2 D) nearMove n x x := by
    intro x hx
    have h0 : 0 < D := by omega
    have h1 : 1 < D := by omega
    have hx' := mem_validStates_two.1 hx
    let a : Fin D → ℤ := fun j => if j = ⟨0, h0⟩ then 1 - x j else x j
    let b : Fin D → ℤ := fun j => if j = ⟨0, h0⟩ ∨ j = ⟨1, h1⟩ then 1 - x j else x j
    have ha : a ∈ validStates 2 D := by
      rw [mem_validStates_two]; intro j; dsimp only [a]
      have := hx' j
      split_ifs <;> omega
    have hb : b ∈ validStates 2 D := by
      rw [mem_validStates_two]; intro j; dsimp only [b]
      have := hx' j
      split_ifs <;> omega
    have hne : ∀ j, 1 - x j ≠ x j := fun j => by have := hx' j; omega
    have h01 : (⟨1, h1⟩ : Fin D) ≠ ⟨0, h0⟩ := by simp
    have hxa : nearMove x a := Or.inl ⟨⟨0, h0⟩, by simpa [a] using hne _, fun j hj => by simp [a, hj]⟩
    have hax : nearMove a x := Or.inl ⟨⟨0, h0⟩, by simpa [a] using (hne _).symm, fun j hj => by simp [a, hj]⟩
    have hab : nearMove a b := by
      refine Or.inl ⟨⟨1, h1⟩, ?_, fun j hj => ?_⟩
      · simpa [a, b, h01] using hne _
      · simp [a, b, hj]
    have hbx : nearMove b x := by
      refine Or.inr ⟨⟨0, h0⟩, ⟨1, h1⟩, h01.symm, ?_, ?_, fun j hj hj' => ?_⟩
      · simpa [b] using (hne _).symm
      · simpa [b] using (hne _).symm
      · simp [b, hj, hj']
    exact Walk.loop ((Walk.single hx hxa).snoc ha hax) (((Walk.single hx hxa).snoc ha hab).snoc hb hbx)
  intro x hx y hy
  have hs := Walk.sites mix_valid (R := nearMove) (fun _ _ _ _ h => Or.inl h) x hx y hy
  have hle : (univ.filter fun j => y j ≠ x j).card ≤ D := by
    simpa using Finset.card_le_univ (univ.filter fun j => y j ≠ x j)
  have := (hloop x hx (D + 2 - (univ.filter fun j => y j ≠ x j).card) (by omega)).trans hs
  rwa [Nat.sub_add_cancel (by omega)] at this

/-- `k ≥ 2` draws with replacement can flip any one site and any two sites. -/
theorem gwg_reaches {k : ℕ} (hk : 2 ≤ k) (h : ℝ → ℝ) (g : (Fin D → ℤ) → Fin D → ℝ)
    (mask : Option (Fin D → ℝ)) {x y : Fin D → ℤ} (hx : x ∈ validStates 2 D) (hy : y ∈ validStates 2 D)
    (hxy : nearMove x y) : ∃ idx : Fin k → Fin D, gwgPropose x idx = y ∧ 0 < gwgDrawLaw h g mask x idx := by
  have hx' := mem_validStates_two.1 hx
  have hy' := mem_validStates_two.1 hy
  obtain ⟨i, i', h1, h2, h3⟩ : ∃ i i', y i ≠ x i ∧ y i' ≠ x i' ∧ ∀ j, j ≠ i → j ≠ i' → y j = x j := by
    rcases hxy with ⟨i, h1, h2⟩ | ⟨i, i', -, h1, h2, h3⟩
    · exact ⟨i, i, h1, h1, fun j hj _ => h2 j hj⟩
    · exact ⟨i, i', h1, h2, h3⟩
  have : Nonempty (Fin D) := ⟨i⟩
  refine ⟨fun t => if (t : ℕ) = 0 then i else i', funext fun j => ?_,
    Finset.prod_pos fun t _ => softmax_pos _ _⟩
  unfold gwgPropose
  split_ifs with hj
  · obtain ⟨t, ht⟩ := hj
    have : y j ≠ x j := by
      rw [← ht]; beta_reduce; split_ifs; exacts [h1, h2]
    have := hx' j
    have := hy' j
    omega
  · push Not at hj
    refine (h3 j (fun e => ?_) fun e => ?_).symm
    · exact hj ⟨0, by omega⟩ (by simp [e])
    · exact hj ⟨1, by omega⟩ (by simp [e])

/-- **C72 (GWG, at least two flips).** With at least two sites and `num_flips ≥ 2` the law of the binary
GWG chain converges to the target from every start, for every model, gradient function and balancing
function, down to the cost of the offset of the acceptance test. -/
theorem gwg_converges (hD : 2 ≤ D) {k : ℕ} (hk : 2 ≤ k) (h : ℝ → ℝ) (f : (Fin D → ℤ) → ℝ)
    (g : (Fin D → ℤ) → Fin D → ℝ) :
    ∃ a, 0 < a ∧ a ≤ 1 ∧ ∀ (s : ℕ → LBState), ∀ tiny : ℝ, 0 ≤ tiny →
      ConvergesWithin (validStates 2 D) (fun x => Real.exp (f x))
        (fun t => gwgBinaryKernel k tiny h f g none (s t)) (D + 2) (1 - a ^ (D + 2))
        ((D + 2 : ℕ) * (2 * tiny) / a ^ (D + 2)) := by
  obtain ⟨a, ha, ha1, hc⟩ := PathMH.converges_walk (ι := Unit) (Ω := fun _ => Fin k → Fin D)
    (fun _ => gwg_pathMH (by omega) k h f g none) (R := nearMove)
    (fun _ x hx y hy hxy => gwg_reaches hk h g none hx hy hxy) (m := D + 2) (by omega) (nearMove_walk hD)
  exact ⟨a, ha, ha1, fun s tiny ht => hc tiny ht (fun _ => ()) _
    (fun t => gwg_isMH k tiny h f g none (s t)) _ fun t x _ y => rfl⟩

/-- **C72 (adaptive GWG).** The adaptive GWG chain converges as long as its radius rounds to at least two
flips. -/
theorem gwgAdaptive_converges (hD : 2 ≤ D) (tgt : ℝ) (h : ℝ → ℝ) (f : (Fin D → ℤ) → ℝ)
    (g : (Fin D → ℤ) → Fin D → ℝ) :
    ∃ a, 0 < a ∧ a ≤ 1 ∧ ∀ s : ℕ → LBState, (∀ t, 2 ≤ numFlips D (s t).radius) → ∀ tiny : ℝ, 0 ≤ tiny →
      ConvergesWithin (validStates 2 D) (fun x => Real.exp (f x))
        (fun t => gwgAdaptiveKernel (by omega) tgt tiny h f g none (s t)) (D + 2) (1 - a ^ (D + 2))
        ((D + 2 : ℕ) * (2 * tiny) / a ^ (D + 2)) := by
  have hle : ∀ r, numFlips D r < D + 1 := fun r => by unfold numFlips; omega
  obtain ⟨a, ha, ha1, hc⟩ := PathMH.converges_walk (ι := {k : Fin (D + 1) // 2 ≤ (k : ℕ)})
    (Ω := fun k => Fin (k.1 : ℕ) → Fin D)
    (fun k => gwg_pathMH (by omega) (k.1 : ℕ) h f g none) (R := nearMove)
    (fun k x hx y hy hxy => gwg_reaches k.2 h g none hx hy hxy) (m := D + 2) (by omega) (nearMove_walk hD)
  exact ⟨a, ha, ha1, fun s hs tiny ht => hc tiny ht (fun t => ⟨⟨numFlips D (s t).radius, hle _⟩, hs t⟩) _
    (fun t => gwgAdaptive_isMH (by omega) tgt tiny h f g none (s t)) _ fun t x _ y => rfl⟩

/-! ## Categorical GWG -/

/-- The two states differ in exactly one site. -/
def siteMove (x y : Fin D → ℤ) : Prop := ∃ i, y i ≠ x i ∧ ∀ j, j ≠ i → y j = x j

theorem siteMove_walk (hD : 0 < D) {C : ℕ} (hC : 3 ≤ C) : ∀ x ∈ validStates C D, ∀ y ∈ validStates C D,
    Walk (validStates C D) siteMove (D + 2) x y := by
  have hset : ∀ x ∈ validStates C D, ∀ v : ℤ, 0 ≤ v → v < C →
      (fun j => if j = (⟨0, hD⟩ : Fin D) then v else x j) ∈ validStates C D := by
    intro x hx v h0 h1
    rw [mem_validStates] at *
    intro j; split_ifs; exacts [⟨h0, h1⟩, hx j]
  have hloop : ∀ x ∈ validStates C D, ∀ n, 2 ≤ n → Walk (validStates C D) siteMove n x x := by
    intro x hx
    have hx0 := (mem_validStates.1 hx) ⟨0, hD⟩
    obtain ⟨v, w, hv, hw, hvx, hwx, hvw⟩ : ∃ v w : ℤ, (0 ≤ v ∧ v < C) ∧ (0 ≤ w ∧ w < C) ∧
        v ≠ x ⟨0, hD⟩ ∧ w ≠ x ⟨0, hD⟩ ∧ w ≠ v := by
      have hCz : (3 : ℤ) ≤ C := by exact_mod_cast hC
      rcases (by omega : x ⟨0, hD⟩ = 0 ∨ x ⟨0, hD⟩ = 1 ∨ 2 ≤ x ⟨0, hD⟩) with e | e | e
      · exact ⟨1, 2, by omega, by omega, by omega, by omega, by omega⟩
      · exact ⟨0, 2, by omega, by omega, by omega, by omega, by omega⟩
      · exact ⟨0, 1, by omega, by omega, by omega, by omega, by omega⟩
    have ha := hset x hx v hv.1 hv.2
    have hb := hset x hx w hw.1 hw.2
    have hxa : siteMove x fun j => if j = (⟨0, hD⟩ : Fin D) then v else x j :=
      ⟨⟨0, hD⟩, by simpa using hvx, fun j hj => by simp [hj]⟩
    have hax : siteMove (fun j => if j = (⟨0, hD⟩ : Fin D) then v else x j) x :=
      ⟨⟨0, hD⟩, by simpa using hvx.symm, fun j hj => by simp [hj]⟩
    have hab : siteMove (fun j => if j = (⟨0, hD⟩ : Fin D) then v else x j)
        (fun j => if j = (⟨0, hD⟩ : Fin D) then w else x j) :=
      ⟨⟨0, hD⟩, by simpa using hvw, fun j hj => by simp [hj]⟩
    have hbx : siteMove (fun j => if j = (⟨0, hD⟩ : Fin D) then w else x j) x :=
      ⟨⟨0, hD⟩, by simpa using hwx.symm, fun j hj => by simp [hj]⟩
    exact Walk.loop ((Walk.single hx hxa).snoc ha hax) (((Walk.single hx hxa).snoc ha hab).snoc hb hbx)
  intro x hx y hy
  have hs := Walk.sites mix_valid (R := siteMove) (fun _ _ _ _ h => h) x hx y hy
  have hle : (univ.filter fun j => y j ≠ x j).card ≤ D := by
    simpa using Finset.card_le_univ (univ.filter fun j => y j ≠ x j)
  have := (hloop x hx (D + 2 - (univ.filter fun j => y j ≠ x j).card) (by omega)).trans hs
  rwa [Nat.sub_add_cancel (by omega)] at this

/-- **C72 (categorical GWG, one chain).** With at least three categories a categorical GWG chain run on
its own converges to the target from every start. -/
theorem cgwg_converges (hD : 0 < D) {C : ℕ} (hC : 3 ≤ C) (h : ℝ → ℝ) (f : (Fin D → Fin C → ℝ) → ℝ)
    (g : (Fin D → Fin C → ℝ) → Fin D → Fin C → ℝ) :
    ∃ a, 0 < a ∧ a ≤ 1 ∧ ∀ (s : ℕ → LBState), ∀ tiny : ℝ, 0 ≤ tiny →
      ConvergesWithin (validStates C D) (fun x => Real.exp (f (oneHotRow C x)))
        (fun t => cgwgKernel tiny h C f g (s t)) (D + 2) (1 - a ^ (D + 2))
        ((D + 2 : ℕ) * (2 * tiny) / a ^ (D + 2)) := by
  have hC0 : 0 < C := by omega
  have : Nonempty (Fin (D * C)) := ⟨⟨0, Nat.mul_pos hD hC0⟩⟩
  have hR : ∀ x ∈ validStates C D, ∀ y ∈ validStates C D, siteMove x y → ∃ n : Fin (D * C),
      cgwgPropose x n = y ∧ 0 < softmax (cgwgDist h (oneHotRow C x) (g (oneHotRow C x))) n := by
    intro x _ y hy ⟨i, hi, hj⟩
    have hyi := mem_validStates.1 hy i
    refine ⟨Fin.mkDivMod i ⟨(y i).toNat, by omega⟩, funext fun j => ?_, softmax_pos _ _⟩
    unfold cgwgPropose
    rw [Fin.divNat_mkDivMod, Fin.modNat_mkDivMod]
    split_ifs with e
    · rw [e]; exact Int.toNat_of_nonneg hyi.1
    · exact (hj j e).symm
  obtain ⟨a, ha, ha1, hc⟩ := PathMH.converges_walk (ι := Unit) (Ω := fun _ => Fin (D * C))
    (fun _ => cgwg_pathMH hD hC0 h f g) (R := siteMove) (fun _ => hR) (m := D + 2)
    (by omega) (siteMove_walk hD hC)
  exact ⟨a, ha, ha1, fun s tiny ht => hc tiny ht (fun _ => ()) _
    (fun t => cgwg_isMH tiny h f g (s t)) _ fun t x _ y => rfl⟩

/-- Instance for the adaptive sampler: radius `5/2` on four sites rounds to two flips. -/
example : 2 ≤ numFlips 4 (5 / 2) := by
  have h : ⌊(5 / 2 : ℝ)⌋ = 2 := by norm_num [Int.floor_eq_iff]
  unfold numFlips roundHalfEven
  simp only [h]
  norm_num

/-- Instance for the binary sampler: with an ideal acceptance test, three sites and two flips per step,
every five steps shrink the distance by a factor below one. -/
example (f : (Fin 3 → ℤ) → ℝ) (g : (Fin 3 → ℤ) → Fin 3 → ℝ) (s : ℕ → LBState) :
    Ergodic (validStates 2 3) (fun x => Real.exp (f x)) (fun t => gwgBinaryKernel 2 0 (· / 2) f g none (s t)) := by
  obtain ⟨a, ha, ha1, hc⟩ := gwg_converges (by norm_num : 2 ≤ 3) le_rfl (· / 2) f g
  have := hc s 0 le_rfl
  rw [mul_zero, mul_zero, zero_div] at this
  have h1 := pow_le_one₀ (n := 3 + 2) ha.le ha1
  have h2 := pow_pos ha (3 + 2)
  exact ⟨3 + 2, by norm_num, 1 - a ^ (3 + 2), by linarith, by linarith, this⟩

end Discs
