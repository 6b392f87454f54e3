import Verif.Lemmas.Trap
import Verif.Lemmas.Search

/-!
# Lemmas on what an adaptive run visits

The laws of the draws and the log ratios of a step depend on the state of the sampler, which depends on the steps before.
-/

namespace Discs.Spec

open Finset MeasureTheory

variable {X St : Type*} {Ω : St → Type*} [∀ s, Fintype (Ω s)]

/-- The steps accept or reject a proposal; the next state is known before the acceptance test. -/
structure AccRejRun (S : Finset X) (tiny : ℝ) (p : ℕ → ∀ s, X → Ω s → ℝ) (step : ℕ → ∀ s, X → Ω s → ℝ → X × St)
    (mv : ℕ → ∀ s, X → Ω s → X) (la : ℕ → ∀ s, X → Ω s → ℝ) (nx : ℕ → ∀ s, X → Ω s → St) : Prop where
  prob : ∀ k s, ∀ x ∈ S, IsProb (p k s x)
  closed : ∀ k s, ∀ x ∈ S, ∀ ω, mv k s x ω ∈ S
  state : ∀ k s, ∀ x ∈ S, ∀ ω u, (step k s x ω u).2 = nx k s x ω
  mh : ∀ k s, IsMHStep S tiny (mv k s) (la k s) fun x ω u => (step k s x ω u).1

variable {S : Finset X} {tiny : ℝ} {p : ℕ → ∀ s, X → Ω s → ℝ} {step : ℕ → ∀ s, X → Ω s → ℝ → X × St}
  {mv : ℕ → ∀ s, X → Ω s → X} {la : ℕ → ∀ s, X → Ω s → ℝ} {nx : ℕ → ∀ s, X → Ω s → St} {Φ : List X → ℝ}

namespace AccRejRun

theorem succ (H : AccRejRun S tiny p step mv la nx) (h0 : 0 ≤ tiny) (n k : ℕ) (s : St) (h : List X) {x : X}
    (hx : x ∈ S) : pathExpect p step Φ (n + 1) k s h x = ∑ ω, p k s x ω *
      (acceptProb tiny (la k s x ω) * pathExpect p step Φ n (k + 1) (nx k s x ω) (h ++ [x]) (mv k s x ω) +
        (1 - acceptProb tiny (la k s x ω)) * pathExpect p step Φ n (k + 1) (nx k s x ω) (h ++ [x]) x) := by
  classical
  rw [pathExpect]
  refine Finset.sum_congr rfl fun ω _ => ?_
  rw [← integral_accept h0]
  congr 1
  refine setIntegral_congr_fun measurableSet_Ico fun u _ => ?_
  simp only [H.state k s x hx ω u]
  by_cases hb : bernoulliLogp tiny u (la k s x ω)
  · rw [if_pos hb, (H.mh k s).accept x hx ω u hb]
  · rw [if_neg hb, (H.mh k s).reject x hx ω u hb]

theorem succ_gain (H : AccRejRun S tiny p step mv la nx) (h0 : 0 ≤ tiny) {n k : ℕ} {s : St} {h : List X} {x : X}
    (hx : x ∈ S) {v w δ : ℝ} (hw : 0 ≤ w)
    (hv : ∀ ω, ∀ y ∈ S, v ≤ pathExpect p step Φ n (k + 1) (nx k s x ω) (h ++ [x]) y) {ω₀ : Ω s}
    (hδ : δ ≤ p k s x ω₀ * acceptProb tiny (la k s x ω₀))
    (hd : v + w ≤ pathExpect p step Φ n (k + 1) (nx k s x ω₀) (h ++ [x]) (mv k s x ω₀)) :
    v + δ * w ≤ pathExpect p step Φ (n + 1) k s h x := by
  classical
  have hp := H.prob k s x hx
  rw [H.succ h0 n k s h hx]
  calc v + δ * w ≤ v + p k s x ω₀ * acceptProb tiny (la k s x ω₀) * w := by nlinarith
    _ = ∑ ω, p k s x ω * (v + if ω = ω₀ then acceptProb tiny (la k s x ω) * w else 0) := by
      simp only [mul_add, Finset.sum_add_distrib, mul_ite, mul_zero]
      rw [← Finset.sum_mul, hp.2, one_mul, Finset.sum_ite_eq', if_pos (mem_univ _), mul_assoc]
    _ ≤ _ := Finset.sum_le_sum fun ω _ => mul_le_mul_of_nonneg_left ?_ (hp.1 ω)
  have a0 := acceptProb_nonneg tiny (la k s x ω)
  have a1 := acceptProb_le_one tiny (la k s x ω)
  have e2 := hv ω x hx
  split_ifs with e
  · subst e; nlinarith
  · have e1 := hv ω _ (H.closed k s x hx ω)
    nlinarith

theorem ge_const (H : AccRejRun S tiny p step mv la nx) (h0 : 0 ≤ tiny) {b : ℝ} {P : List X → Prop}
    (hP : ∀ l x, P l → P (l ++ [x])) (hb : ∀ l, P l → b ≤ Φ l) (n : ℕ) :
    ∀ (k : ℕ) (s : St) (h : List X) (x : X), x ∈ S → P (h ++ [x]) → b ≤ pathExpect p step Φ n k s h x := by
  induction n with
  | zero => intro k s h x _ hl; exact hb _ hl
  | succ n ih =>
    intro k s h x hx hl
    have hp := H.prob k s x hx
    rw [H.succ h0 n k s h hx]
    calc b = ∑ ω, p k s x ω * b := by rw [← Finset.sum_mul, hp.2, one_mul]
      _ ≤ _ := Finset.sum_le_sum fun ω _ => mul_le_mul_of_nonneg_left ?_ (hp.1 ω)
    have a0 := acceptProb_nonneg tiny (la k s x ω)
    have a1 := acceptProb_le_one tiny (la k s x ω)
    have e1 := ih (k + 1) (nx k s x ω) (h ++ [x]) _ (H.closed k s x hx ω) (hP _ _ hl)
    have e2 := ih (k + 1) (nx k s x ω) (h ++ [x]) x hx (hP _ _ hl)
    nlinarith

/-- Moves of probability at least `δ` lead from every sample to `y` within `M` steps: an adaptive run visits `Y ∋ y` but for
a probability that shrinks geometrically. -/
theorem hits (H : AccRejRun S tiny p step mv la nx) (h0 : 0 ≤ tiny) {R : X → X → Prop} {δ : ℝ} (hδ : 0 ≤ δ)
    (hδ1 : δ ≤ 1) {T : ℕ}
    (hR : ∀ k < T, ∀ s, ∀ x ∈ S, ∀ z ∈ S, R x z → ∃ ω, mv k s x ω = z ∧
      δ ≤ p k s x ω * acceptProb tiny (la k s x ω))
    {y : X} (hy : y ∈ S) {Y : Finset X} (hyY : y ∈ Y) {M : ℕ} (hw : ∀ x ∈ S, ∃ m ≤ M, Walk S R m x y) (j : ℕ) :
    ∀ n, j * M ≤ n → ∀ k, k + n ≤ T → ∀ (s : St) (h : List X), ∀ x ∈ S,
      1 - (1 - δ ^ M) ^ j ≤ pathExpect p step (indic fun path => ∃ z ∈ path, z ∈ Y) n k s h x := by
  have hmono : ∀ (l : List X) (x : X), (∃ z ∈ l, z ∈ Y) → ∃ z ∈ l ++ [x], z ∈ Y :=
    fun l x ⟨z, hz, hzY⟩ => ⟨z, List.mem_append_left _ hz, hzY⟩
  induction j with
  | zero =>
    intro n _ k _ s h x hx
    rw [pow_zero, sub_self]
    exact H.ge_const h0 (P := fun _ => True) (fun _ _ _ => trivial) (fun l _ => indic_nonneg _ l) n k s h x hx trivial
  | succ j ih =>
    have q0 : 0 ≤ δ ^ M := pow_nonneg hδ M
    have q1 : δ ^ M ≤ 1 := pow_le_one₀ hδ hδ1
    set v : ℝ := 1 - (1 - δ ^ M) ^ j with hv
    have hv1 : 0 ≤ 1 - v := by
      rw [hv]; have := pow_nonneg (by linarith : 0 ≤ 1 - δ ^ M) j; linarith
    have inner : ∀ m n, j * M + m ≤ n → ∀ k, k + n ≤ T → ∀ (s : St) (h : List X), ∀ x ∈ S, Walk S R m x y →
        v + δ ^ m * (1 - v) ≤ pathExpect p step (indic fun path => ∃ z ∈ path, z ∈ Y) n k s h x := by
      intro m
      induction m with
      | zero =>
        rintro n hn k hk s h x hx rfl
        have := H.ge_const (Φ := indic fun path => ∃ z ∈ path, z ∈ Y) (b := 1) h0 hmono
          (fun l hl => (indic_of hl).ge) n k s h x hx ⟨x, by simp, hyY⟩
        simpa using this
      | succ m ihm =>
        intro n hn k hk s h x hx hwalk
        obtain ⟨n, rfl⟩ : ∃ n', n = n' + 1 := ⟨n - 1, by omega⟩
        obtain ⟨z, hz, hxz, hwz⟩ := hwalk.cons hx hy
        obtain ⟨ω, hmv, hp⟩ := hR k (by omega) s x hx z hz hxz
        have := H.succ_gain (Φ := indic fun path => ∃ z ∈ path, z ∈ Y) h0 (n := n) (k := k) (s := s) (h := h) hx
          (v := v) (w := δ ^ m * (1 - v)) (mul_nonneg (pow_nonneg hδ m) hv1)
          (fun ω y hy => ih n (by omega) (k + 1) (by omega) _ _ y hy) hp
          (by rw [hmv]; exact ihm n (by omega) (k + 1) (by omega) _ _ z hz hwz)
        calc _ = v + δ * (δ ^ m * (1 - v)) := by rw [pow_succ]; ring
          _ ≤ _ := this
    intro n hn k hk s h x hx
    obtain ⟨m, hm, hwalk⟩ := hw x hx
    have e := inner m n (by rw [add_mul, one_mul] at hn; omega) k hk s h x hx hwalk
    have hpow : δ ^ M ≤ δ ^ m := pow_le_pow_of_le_one hδ hδ1 hm
    calc 1 - (1 - δ ^ M) ^ (j + 1) = v + δ ^ M * (1 - v) := by rw [hv]; ring
      _ ≤ v + δ ^ m * (1 - v) := by nlinarith
      _ ≤ _ := e

end AccRejRun

end Discs.Spec
