import Verif.Lemmas.SiteRun

/-!
# Shares of time of the two-number process

If the radius takes values indexed by `L`, a function `h` that nearly solves Poisson's equation bounds the
expected share of time of the site.
-/

namespace Discs

open Finset Spec

/-- One step of the two-number process on radii indexed by `L`, applied to a function. -/
def siteOp {L : Type*} (b c : ℝ) (P : L → ℝ) (up dn : L → L) (φ : L → Bool → ℝ) : L → Bool → ℝ
  | l, true => P l * (b * φ (dn l) false + (1 - b) * φ (dn l) true) + (1 - P l) * φ (up l) true
  | l, false => P l * (c * φ (up l) true + (1 - c) * φ (up l) false) + (1 - P l) * φ (up l) false

variable {L : Type*} {b c : ℝ} {P : L → ℝ} {up dn : L → L}

theorem siteOp_mono (hb : 0 ≤ b ∧ b ≤ 1) (hc : 0 ≤ c ∧ c ≤ 1) (hP : ∀ l, 0 ≤ P l ∧ P l ≤ 1)
    {φ ψ : L → Bool → ℝ} (h : ∀ l v, φ l v ≤ ψ l v) (l : L) (v : Bool) :
    siteOp b c P up dn φ l v ≤ siteOp b c P up dn ψ l v := by
  have hb' : 0 ≤ 1 - b := by linarith
  have hc' : 0 ≤ 1 - c := by linarith
  have hP' : 0 ≤ 1 - P l := by linarith [(hP l).2]
  cases v
  · exact add_le_add (mul_le_mul_of_nonneg_left (add_le_add (mul_le_mul_of_nonneg_left (h _ _) hc.1)
      (mul_le_mul_of_nonneg_left (h _ _) hc')) (hP l).1) (mul_le_mul_of_nonneg_left (h _ _) hP')
  · exact add_le_add (mul_le_mul_of_nonneg_left (add_le_add (mul_le_mul_of_nonneg_left (h _ _) hb.1)
      (mul_le_mul_of_nonneg_left (h _ _) hb')) (hP l).1) (mul_le_mul_of_nonneg_left (h _ _) hP')

theorem siteOp_add_const (φ : L → Bool → ℝ) (a : ℝ) (l : L) (v : Bool) :
    siteOp b c P up dn (fun l v => a + φ l v) l v = a + siteOp b c P up dn φ l v := by
  cases v <;> unfold siteOp <;> ring

/-- Dependence on the acceptance probabilities. -/
theorem siteOp_close {b' c' : ℝ} {e M : ℝ} (hb : |b - b'| ≤ e) (hc : |c - c'| ≤ e)
    (hP : ∀ l, 0 ≤ P l ∧ P l ≤ 1) {φ : L → Bool → ℝ} (h : ∀ l v, 0 ≤ φ l v ∧ φ l v ≤ M) (l : L) (v : Bool) :
    |siteOp b c P up dn φ l v - siteOp b' c' P up dn φ l v| ≤ e * M := by
  have he : 0 ≤ e := (abs_nonneg _).trans hb
  have key : ∀ k d, |d| ≤ e → |P l * (d * (φ k false - φ k true))| ≤ e * M := by
    intro k d hd
    have h1 : |φ k false - φ k true| ≤ M := by
      rw [abs_le]; have := h k false; have := h k true; constructor <;> linarith
    have hM : 0 ≤ M := (h k true).1.trans (h k true).2
    rw [abs_mul, abs_mul, abs_of_nonneg (hP l).1]
    calc P l * (|d| * |φ k false - φ k true|) ≤ 1 * (e * M) :=
          mul_le_mul (hP l).2 (mul_le_mul hd h1 (abs_nonneg _) he) (by positivity) zero_le_one
      _ = e * M := one_mul _
  cases v
  · have e1 : siteOp b c P up dn φ l false - siteOp b' c' P up dn φ l false =
        P l * (-(c - c') * (φ (up l) false - φ (up l) true)) := by unfold siteOp; ring
    rw [e1]; exact key _ _ (by rwa [abs_neg])
  · have e1 : siteOp b c P up dn φ l true - siteOp b' c' P up dn φ l true =
        P l * ((b - b') * (φ (dn l) false - φ (dn l) true)) := by unfold siteOp; ring
    rw [e1]; exact key _ _ hb

/-- The process with radii `rad l` is the iterated step. -/
theorem siteRun_succ_rad {ρ : ℝ} {Q : ℝ → ℝ} {next : ℝ → ℝ → ℝ} (rad : L → ℝ)
    (hup : ∀ l, next (rad l) 1 = rad (up l)) (hdn : ∀ l, next (rad l) ρ = rad (dn l)) (n : ℕ) (l : L)
    (v : Bool) :
    siteRun ρ b c Q next (n + 1) (rad l) v =
      siteOp b c (fun l => Q (rad l)) up dn (fun l v => siteRun ρ b c Q next n (rad l) v) l v := by
  cases v <;> simp [siteRun, siteOp, hup, hdn]

/-- Expected time at 1: if `h` solves Poisson's equation up to `e` at the value `m`, the expected number of
visits among the first `n` steps is `n * m` up to `n * e` and a constant. -/
theorem siteRun_average {ρ m e M : ℝ} {Q : ℝ → ℝ} {next : ℝ → ℝ → ℝ} (rad : L → ℝ)
    (hup : ∀ l, next (rad l) 1 = rad (up l)) (hdn : ∀ l, next (rad l) ρ = rad (dn l))
    (hb : 0 ≤ b ∧ b ≤ 1) (hc : 0 ≤ c ∧ c ≤ 1) (hP : ∀ l, 0 ≤ Q (rad l) ∧ Q (rad l) ≤ 1)
    {h : L → Bool → ℝ} (hh : ∀ l v, 0 ≤ h l v ∧ h l v ≤ M)
    (hres : ∀ l v, |(if v then 1 else 0) + siteOp b c (fun l => Q (rad l)) up dn h l v - h l v - m| ≤ e)
    (n : ℕ) (l : L) (v : Bool) :
    |∑ k ∈ range n, siteRun ρ b c Q next k (rad l) v - n * m| ≤ n * e + M := by
  set A : ℕ → L → Bool → ℝ := fun n l v => ∑ k ∈ range n, siteRun ρ b c Q next k (rad l) v with hA
  have hsum : ∀ (n : ℕ) l v, siteOp b c (fun l => Q (rad l)) up dn (A n) l v =
      ∑ k ∈ range n, siteRun ρ b c Q next (k + 1) (rad l) v := by
    intro n
    induction n with
    | zero => intro l v; cases v <;> simp [hA, siteOp]
    | succ n ih =>
      intro l v
      rw [Finset.sum_range_succ, ← ih l v, siteRun_succ_rad rad hup hdn]
      cases v <;> simp only [hA, siteOp, Finset.sum_range_succ] <;> ring
  have hsucc : ∀ (n : ℕ) l v, A (n + 1) l v =
      (if v then 1 else 0) + siteOp b c (fun l => Q (rad l)) up dn (A n) l v := by
    intro n l v
    rw [hsum]
    simp only [hA]
    rw [Finset.sum_range_succ', add_comm]
    cases v <;> rfl
  have hup' : ∀ (n : ℕ) l v, A n l v ≤ n * (m + e) + h l v := by
    intro n
    induction n with
    | zero => intro l v; simpa [hA] using (hh l v).1
    | succ n ih =>
      intro l v
      have h1 := siteOp_mono (up := up) (dn := dn) hb hc hP ih l v
      rw [siteOp_add_const] at h1
      rw [hsucc]
      have h2 := (abs_le.1 (hres l v)).2
      push_cast
      linarith
  have hlo : ∀ (n : ℕ) l v, n * (m - e) + (-M + h l v) ≤ A n l v := by
    intro n
    induction n with
    | zero => intro l v; have := (hh l v).2; simp only [hA, Finset.range_zero, Finset.sum_empty]; simp; linarith
    | succ n ih =>
      intro l v
      have h1 := siteOp_mono (up := up) (dn := dn) hb hc hP ih l v
      rw [siteOp_add_const, siteOp_add_const] at h1
      rw [hsucc]
      have h2 := (abs_le.1 (hres l v)).1
      push_cast
      linarith
  have h1 := hup' n l v
  have h2 := hlo n l v
  have h3 := hh l v
  rw [abs_le]
  constructor <;> linarith

end Discs
