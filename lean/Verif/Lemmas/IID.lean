import Verif.Spec.IID
import Mathlib.Tactic.LinearCombination

/-!
# Moments of independent draws
-/

namespace Discs

open Finset Spec

section mean
variable {X : Type*} {S : Finset X} {w : X → ℝ}

theorem mean_add' (f g : X → ℝ) : mean S w (fun x => f x + g x) = mean S w f + mean S w g := by
  simp only [mean, mul_add, Finset.sum_add_distrib, add_div]

theorem mean_mul_left (c : ℝ) (f : X → ℝ) : mean S w (fun x => c * f x) = c * mean S w f := by
  simp only [mean]
  rw [mul_div_assoc', Finset.mul_sum]
  congr 1
  exact Finset.sum_congr rfl fun x _ => by ring

theorem mean_sum' {ι : Type*} (s : Finset ι) (f : ι → X → ℝ) :
    mean S w (fun x => ∑ i ∈ s, f i x) = ∑ i ∈ s, mean S w (f i) := by
  simp only [mean, Finset.mul_sum]
  rw [Finset.sum_comm, Finset.sum_div]

theorem mean_const' (hZ : ∑ x ∈ S, w x ≠ 0) (c : ℝ) : mean S w (fun _ => c) = c := by
  simp only [mean]
  rw [← Finset.sum_mul, mul_div_assoc, mul_comm, div_mul_cancel₀ _ hZ]

theorem mean_congr' {f g : X → ℝ} (h : ∀ x, f x = g x) : mean S w f = mean S w g := by
  rw [show f = g from funext h]

theorem mean_center (hZ : ∑ x ∈ S, w x ≠ 0) (u : X → ℝ) :
    mean S w (fun x => u x - mean S w u) = 0 := by
  simp only [sub_eq_add_neg]
  rw [mean_add', mean_const' hZ]; ring

end mean

section iid
variable {X : Type*} {K : Type*} [Fintype K] [DecidableEq K] {S : Finset X} {w : X → ℝ}

theorem meanIID_prod (f : K → X → ℝ) :
    meanIID K S w (fun ω => ∏ k, f k (ω k)) = ∏ k, mean S w (f k) := by
  simp only [meanIID, mean, ← Finset.prod_mul_distrib]
  rw [Finset.prod_div_distrib, Finset.prod_univ_sum, Finset.prod_univ_sum]

theorem iid_mass (hZ : ∑ x ∈ S, w x ≠ 0) :
    ∑ ω ∈ Fintype.piFinset fun _ : K => S, ∏ k, w (ω k) ≠ 0 := by
  rw [← Finset.prod_univ_sum]
  exact Finset.prod_ne_zero_iff.2 fun _ _ => hZ

theorem meanIID_one (hZ : ∑ x ∈ S, w x ≠ 0) (k : K) (u : X → ℝ) :
    meanIID K S w (fun ω => u (ω k)) = mean S w u := by
  have h := meanIID_prod (S := S) (w := w) (fun j : K => if j = k then u else fun _ => 1)
  have e1 : ∀ ω : K → X, ∏ j, (if j = k then u else fun _ => 1) (ω j) = u (ω k) := by
    intro ω
    rw [Finset.prod_eq_single k]
    · simp
    · intro j _ hj; simp [hj]
    · simp
  have e2 : ∏ j, mean S w (if j = k then u else fun _ => 1) = mean S w u := by
    rw [Finset.prod_eq_single k]
    · simp
    · intro j _ hj; rw [if_neg hj]; exact mean_const' hZ 1
    · simp
  simp only [e1] at h
  rw [h, e2]

theorem meanIID_two (hZ : ∑ x ∈ S, w x ≠ 0) {k l : K} (hkl : k ≠ l) (u v : X → ℝ) :
    meanIID K S w (fun ω => u (ω k) * v (ω l)) = mean S w u * mean S w v := by
  have h := meanIID_prod (S := S) (w := w)
    (fun j : K => if j = k then u else if j = l then v else fun _ => 1)
  have e1 : ∀ ω : K → X, ∏ j, (if j = k then u else if j = l then v else fun _ => 1) (ω j) =
      u (ω k) * v (ω l) := by
    intro ω
    rw [Finset.prod_eq_mul k l hkl]
    · simp [hkl.symm]
    · intro j _ hj; simp [hj.1, hj.2]
    · simp
    · simp
  have e2 : ∏ j, mean S w (if j = k then u else if j = l then v else fun _ => 1) =
      mean S w u * mean S w v := by
    rw [Finset.prod_eq_mul k l hkl]
    · simp [hkl.symm]
    · intro j _ hj; rw [if_neg hj.1, if_neg hj.2]; exact mean_const' hZ 1
    · simp
    · simp
  simp only [e1] at h
  rw [h, e2]

/-- Centred draws are uncorrelated. -/
theorem meanIID_cov (hZ : ∑ x ∈ S, w x ≠ 0) (u : X → ℝ) (k l : K) :
    meanIID K S w (fun ω => (u (ω k) - mean S w u) * (u (ω l) - mean S w u)) =
      if k = l then variance S w u else 0 := by
  split_ifs with h
  · subst h
    rw [meanIID_one hZ k fun x => (u x - mean S w u) * (u x - mean S w u)]
    simp only [variance, pow_two]
  · rw [meanIID_two hZ h (fun x => u x - mean S w u) fun x => u x - mean S w u, mean_center hZ,
      zero_mul]

/-- Second moment of the centred sum of `n` draws. -/
theorem meanIID_sum_sq (hZ : ∑ x ∈ S, w x ≠ 0) (u : X → ℝ) {n : ℕ} (κ : Fin n → K)
    (hκ : Function.Injective κ) :
    meanIID K S w (fun ω => (∑ t, (u (ω (κ t)) - mean S w u)) ^ 2) = n * variance S w u := by
  have h1 : ∀ ω : K → X, (∑ t, (u (ω (κ t)) - mean S w u)) ^ 2 =
      ∑ t, ∑ t', (u (ω (κ t)) - mean S w u) * (u (ω (κ t')) - mean S w u) := by
    intro ω; rw [pow_two, Finset.sum_mul_sum]
  simp only [h1]
  have h2 : ∀ t t', meanIID K S w (fun ω => (u (ω (κ t)) - mean S w u) *
      (u (ω (κ t')) - mean S w u)) = if t = t' then variance S w u else 0 := by
    intro t t'
    rw [meanIID_cov hZ]
    exact if_congr hκ.eq_iff rfl rfl
  unfold meanIID at h2 ⊢
  rw [mean_sum']
  simp only [mean_sum', h2, Finset.sum_ite_eq, Finset.mem_univ, if_true]
  simp

end iid

end Discs
