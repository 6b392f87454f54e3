import Verif.Lemmas.Doeblin
import Verif.Lemmas.MH
import Verif.Spec.Anneal

/-!
# Lemmas on annealed runs
-/

namespace Discs.Spec

open Finset

variable {X Ω : Type*}

/-- If `q` is at least the fraction `c` of `p` everywhere then the two laws are within `2 (1 - c)`. -/
theorem l1_of_ge {S : Finset X} {p q : X → ℝ} {c : ℝ} (hc : c ≤ 1) (hp : ∀ x ∈ S, 0 ≤ p x)
    (hp1 : ∑ x ∈ S, p x = 1) (hq1 : ∑ x ∈ S, q x = 1) (h : ∀ x ∈ S, c * p x ≤ q x) :
    l1 S p q ≤ 2 * (1 - c) := by
  calc l1 S p q ≤ ∑ x ∈ S, ((1 - c) * p x + (q x - c * p x)) := by
        refine Finset.sum_le_sum fun x hx => ?_
        have h1 := h x hx
        have h2 : 0 ≤ (1 - c) * p x := mul_nonneg (by linarith) (hp x hx)
        rw [abs_le]
        constructor <;> nlinarith
    _ = 2 * (1 - c) := by
        rw [Finset.sum_add_distrib, Finset.sum_sub_distrib, ← Finset.mul_sum, ← Finset.mul_sum, hp1, hq1]
        ring

theorem boltz_pos (E : X → ℝ) (T : ℝ) (x : X) : 0 < boltz E T x := Real.exp_pos _

theorem sum_boltz_pos {S : Finset X} (hS : S.Nonempty) (E : X → ℝ) (T : ℝ) : 0 < ∑ x ∈ S, boltz E T x :=
  Finset.sum_pos (fun x _ => boltz_pos E T x) hS

/-- Two temperatures of a score of range `R`. -/
theorem l1_boltz {S : Finset X} (hS : S.Nonempty) {E : X → ℝ} {R : ℝ}
    (hR : ∀ x ∈ S, ∀ y ∈ S, E x - E y ≤ R) (T T' : ℝ) :
    l1 S (target S (boltz E T)) (target S (boltz E T')) ≤ 2 * (|1 / T - 1 / T'| * R) := by
  set δ := |1 / T - 1 / T'| with hδ
  obtain ⟨z, hz⟩ := id hS
  have hR0 : 0 ≤ R := by have := hR z hz z hz; linarith
  have hδ0 : 0 ≤ δ := abs_nonneg _
  have hZ := sum_boltz_pos hS E T
  have hZ' := sum_boltz_pos hS E T'
  have hc : Real.exp (-(δ * R)) ≤ 1 := Real.exp_le_one_iff.2 (by nlinarith)
  have key := l1_of_ge (S := S) (p := target S (boltz E T)) (q := target S (boltz E T')) hc
    (target_nonneg fun x _ => (boltz_pos E T x).le) (sum_target hZ) (sum_target hZ') (fun x hx => by
      unfold target
      rw [← mul_div_assoc, div_le_div_iff₀ hZ hZ', Finset.mul_sum, Finset.mul_sum]
      refine Finset.sum_le_sum fun y hy => ?_
      unfold boltz
      rw [← Real.exp_add, ← Real.exp_add, ← Real.exp_add]
      refine Real.exp_le_exp.2 ?_
      have h1 := hR x hx y hy
      have h2 := hR y hy x hx
      have h3 : (1 / T - 1 / T') * (E x - E y) ≤ δ * R := by
        refine (le_abs_self _).trans ?_
        rw [abs_mul]
        exact mul_le_mul_of_nonneg_left (abs_le.2 ⟨by linarith, h1⟩) hδ0
      have h4 : (1 / T - 1 / T') * (E x - E y) = E x / T + E y / T' - (E x / T' + E y / T) := by ring
      linarith)
  have := Real.add_one_le_exp (-(δ * R))
  linarith

theorem l1_le_two {S : Finset X} {p q : X → ℝ} (hp : ∀ x ∈ S, 0 ≤ p x) (hq : ∀ x ∈ S, 0 ≤ q x)
    (hp1 : ∑ x ∈ S, p x = 1) (hq1 : ∑ x ∈ S, q x = 1) : l1 S p q ≤ 2 := by
  have := l1_of_ge (c := 0) zero_le_one hp hp1 hq1 fun x hx => by simpa using hq x hx
  linarith

theorem l1_push_le_self {S : Finset X} {L : X → X → ℝ} (hL : Stochastic S L) (hS : S.Nonempty) {μ p : X → ℝ}
    (hμp : ∑ x ∈ S, μ x = ∑ x ∈ S, p x) : l1 S (push S μ L) (push S p L) ≤ l1 S μ p := by
  obtain ⟨z, hz⟩ := hS
  have := l1_push_le hL (ν := L z) (hL.2.1 z hz) (δ := 0) (fun x hx y _ => by simpa using hL.1 x hx y) hμp
  simpa using this

/-- A target that drifts by at most `η` per step is followed by the kernels that preserve it. -/
theorem l1_push_drift [DecidableEq X] {S : Finset X} (hS : S.Nonempty) {π : ℕ → X → ℝ} {L : ℕ → X → X → ℝ} {η : ℝ}
    (hπ : ∀ t, ∀ x ∈ S, 0 < π t x) (hL : ∀ t, Stochastic S (L t))
    (hinv : ∀ t, Invariant S (π (t + 1)) (L t)) (a m : ℕ)
    (hη : ∀ t, a ≤ t → t < a + m → l1 S (target S (π t)) (target S (π (t + 1))) ≤ η) :
    l1 S (push S (target S (π a)) (iterate S (fun i => L (a + i)) m)) (target S (π (a + m))) ≤ m * η := by
  induction m with
  | zero =>
    have : l1 S (push S (target S (π a)) (iterate S (fun i => L (a + i)) 0)) (target S (π (a + 0))) =
        l1 S (target S (π a)) (target S (π a)) :=
      l1_congr (fun y hy => by simp [push, iterate, hy]) fun _ _ => rfl
    rw [this]; simp [l1]
  | succ m ih =>
    have ih := ih fun t h1 h2 => hη t h1 (by omega)
    set p := push S (target S (π a)) (iterate S (fun i => L (a + i)) m) with hp
    have hst : Stochastic S (iterate S (fun i => L (a + i)) m) := stochastic_iterate (fun t => hL (a + t)) m
    have hone : ∀ t, ∑ x ∈ S, target S (π t) x = 1 := fun t => sum_target (Finset.sum_pos (hπ t) hS)
    have hp1 : ∑ x ∈ S, p x = 1 := by rw [hp, sum_push hst, hone]
    have e : l1 S (push S (target S (π a)) (iterate S (fun i => L (a + i)) (m + 1)))
        (target S (π (a + (m + 1)))) =
        l1 S (push S p (L (a + m))) (push S (target S (π (a + m + 1))) (L (a + m))) := by
      refine l1_congr (fun y _ => ?_) fun y hy => (push_target (hinv (a + m)) y hy).symm
      simp only [hp, push, iterate, comp, Finset.mul_sum, Finset.sum_mul]
      rw [Finset.sum_comm]
      simp only [mul_assoc]
    rw [e]
    refine (l1_push_le_self (hL (a + m)) hS (hp1.trans (hone _).symm)).trans ?_
    have h1 := l1_triangle S p (target S (π (a + m))) (target S (π (a + m + 1)))
    have h2 := hη (a + m) (by omega) (by omega)
    push_cast
    linarith

/-- A run whose step `t` nearly preserves a target that drifts by at most `η` per step, and which forgets a
fraction `δ` of where it was every `m` steps, follows the target. -/
theorem anneal_bound [DecidableEq X] {S : Finset X} {π : ℕ → X → ℝ} {K L : ℕ → X → X → ℝ} {ρ δ η : ℝ}
    {m : ℕ} (hπ : ∀ t, ∀ x ∈ S, 0 < π t x) (hK : ∀ t, Stochastic S (K t)) (hL : ∀ t, Stochastic S (L t))
    (hinv : ∀ t, Invariant S (π (t + 1)) (L t)) (hρ : 0 ≤ ρ) (hη0 : 0 ≤ η)
    (hclose : ∀ t, ∀ x ∈ S, ∑ y ∈ S, |K t x y - L t x y| ≤ ρ)
    (hδ : 0 < δ) (hδ1 : δ ≤ 1) (ν : ℕ → X → ℝ) (hν : ∀ t, ∑ y ∈ S, ν t y = 1) (n : ℕ)
    (hmin : ∀ t, t + m ≤ n → ∀ x ∈ S, ∀ y ∈ S, δ * ν t y ≤ iterate S (fun i => L (t + i)) m x y)
    (hη : ∀ t < n, l1 S (target S (π t)) (target S (π (t + 1))) ≤ η) :
    ∀ x ∈ S, l1 S (iterate S K n x) (target S (π n)) ≤ 2 * (1 - δ) ^ (n / m) + m * (η + ρ) / δ := by
  intro x hx
  have hS : S.Nonempty := ⟨x, hx⟩
  have hone : ∀ t, ∑ x ∈ S, target S (π t) x = 1 := fun t => sum_target (Finset.sum_pos (hπ t) hS)
  have hstep : ∀ a, a + m ≤ n → l1 S (iterate S K (a + m) x) (target S (π (a + m))) ≤
      (1 - δ) * l1 S (iterate S K a x) (target S (π a)) + m * (η + ρ) := by
    intro a ham
    have hs := stochastic_iterate hK a
    set μ := iterate S K a x with hμ
    set KK := iterate S (fun i => K (a + i)) m with hKK
    set LL := iterate S (fun i => L (a + i)) m with hLL
    have hLLs : Stochastic S LL := stochastic_iterate (fun t => hL (a + t)) m
    have e1 : l1 S (iterate S K (a + m) x) (target S (π (a + m))) = l1 S (push S μ KK) (target S (π (a + m))) :=
      l1_congr (fun y hy => iterate_add K a m x hy) fun _ _ => rfl
    have e2 : l1 S (push S μ KK) (push S μ LL) ≤ m * ρ :=
      l1_push_close (l1_iterate_close (fun t => hK (a + t)) (fun t => hL (a + t))
        (fun t => hclose (a + t)) m) (fun y _ => hs.1 x hx y) (hs.2.1 x hx)
    have e3 : l1 S (push S μ LL) (push S (target S (π a)) LL) ≤ (1 - δ) * l1 S μ (target S (π a)) :=
      l1_push_le hLLs (hν a) (hmin a ham) ((hs.2.1 x hx).trans (hone a).symm)
    have e4 := l1_push_drift hS hπ hL hinv a m fun t _ h2 => hη t (by omega)
    rw [e1]
    have e5 := l1_triangle S (push S μ KK) (push S μ LL) (target S (π (a + m)))
    have e6 := l1_triangle S (push S μ LL) (push S (target S (π a)) LL) (target S (π (a + m)))
    rw [← hLL] at e4
    linarith
  have hbase : ∀ a, l1 S (iterate S K a x) (target S (π a)) ≤ 2 := by
    intro a
    have hs := stochastic_iterate hK a
    exact l1_le_two (fun y _ => hs.1 x hx y) (target_nonneg fun y hy => (hπ a y hy).le) (hs.2.1 x hx) (hone a)
  have hfl : 0 ≤ m * (η + ρ) / δ := by positivity
  have key : ∀ q r, r + m * q ≤ n → l1 S (iterate S K (r + m * q) x) (target S (π (r + m * q))) ≤
      2 * (1 - δ) ^ q + m * (η + ρ) / δ := by
    intro q r hqn
    induction q with
    | zero => simp only [mul_zero, add_zero, pow_zero, mul_one]; linarith [hbase r]
    | succ q ih =>
      rw [Nat.mul_succ, ← add_assoc] at hqn
      have ih := ih (by omega)
      have := hstep (r + m * q) hqn
      rw [Nat.mul_succ, ← add_assoc]
      refine this.trans ?_
      have h1 : (1 - δ) * l1 S (iterate S K (r + m * q) x) (target S (π (r + m * q))) ≤
          (1 - δ) * (2 * (1 - δ) ^ q + m * (η + ρ) / δ) :=
        mul_le_mul_of_nonneg_left ih (by linarith)
      have h2 : (1 - δ) * (2 * (1 - δ) ^ q + m * (η + ρ) / δ) + m * (η + ρ) =
          2 * (1 - δ) ^ (q + 1) + m * (η + ρ) / δ := by
        rw [pow_succ]; field_simp; ring
      linarith
  have := key (n / m) (n % m) (le_of_eq (Nat.mod_add_div n m))
  rwa [Nat.mod_add_div] at this

/-! ### Optima -/

theorem mem_optima {S : Finset X} {E : X → ℝ} {x : X} : x ∈ optima S E ↔ x ∈ S ∧ ∀ y ∈ S, E y ≤ E x := by
  classical
  unfold optima
  rw [@Finset.mem_filter]

theorem optima_subset {S : Finset X} {E : X → ℝ} : optima S E ⊆ S := fun _ h => (mem_optima.1 h).1

theorem optima_nonempty {S : Finset X} (hS : S.Nonempty) (E : X → ℝ) : (optima S E).Nonempty := by
  obtain ⟨x, hx, h⟩ := S.exists_max_image E hS
  exact ⟨x, mem_optima.2 ⟨hx, h⟩⟩

/-- A sample of the Boltzmann law is an optimum with at least the probability of a uniform guess. -/
theorem mass_optima_ge_uniform {S : Finset X} (hS : S.Nonempty) (E : X → ℝ) {T : ℝ} (hT : 0 < T) :
    1 / (S.card : ℝ) ≤ mass (target S (boltz E T)) (optima S E) := by
  obtain ⟨x, hx⟩ := optima_nonempty hS E
  have hx' := mem_optima.1 hx
  have hZ := sum_boltz_pos hS E T
  have hc : (0 : ℝ) < S.card := by exact_mod_cast hS.card_pos
  have h1 : target S (boltz E T) x ≤ mass (target S (boltz E T)) (optima S E) :=
    Finset.single_le_sum (f := target S (boltz E T))
      (fun y hy => target_nonneg (fun z _ => (boltz_pos E T z).le) y (optima_subset hy)) hx
  refine le_trans ?_ h1
  unfold target
  rw [div_le_div_iff₀ hc hZ, one_mul]
  calc ∑ y ∈ S, boltz E T y ≤ ∑ _y ∈ S, boltz E T x :=
        Finset.sum_le_sum fun y hy => Real.exp_le_exp.2 (div_le_div_of_nonneg_right (hx'.2 y hy) hT.le)
    _ = boltz E T x * S.card := by rw [Finset.sum_const, nsmul_eq_mul, mul_comm]

/-- With a gap `g` below the optimum, a sample of the Boltzmann law at a low temperature is an optimum. -/
theorem mass_optima_ge_gap {S : Finset X} (hS : S.Nonempty) {E : X → ℝ} {g T : ℝ} (hT : 0 < T)
    (hg : ∀ x ∈ optima S E, ∀ y ∈ S, y ∉ optima S E → E y + g ≤ E x) :
    1 - S.card * Real.exp (-(g / T)) ≤ mass (target S (boltz E T)) (optima S E) := by
  classical
  obtain ⟨x, hx⟩ := optima_nonempty hS E
  have hZ := sum_boltz_pos hS E T
  have hsplit : mass (target S (boltz E T)) (optima S E) +
      ∑ y ∈ S \ optima S E, target S (boltz E T) y = 1 := by
    rw [← sum_target hZ, ← Finset.sum_sdiff (optima_subset (S := S) (E := E))]
    unfold mass
    ring
  have hbad : ∑ y ∈ S \ optima S E, target S (boltz E T) y ≤ S.card * Real.exp (-(g / T)) := by
    calc ∑ y ∈ S \ optima S E, target S (boltz E T) y
        ≤ ∑ _y ∈ S \ optima S E, Real.exp (-(g / T)) := by
          refine Finset.sum_le_sum fun y hy => ?_
          obtain ⟨hy, hn⟩ := Finset.mem_sdiff.1 hy
          unfold target
          rw [div_le_iff₀ hZ]
          have h1 : boltz E T x ≤ ∑ z ∈ S, boltz E T z :=
            Finset.single_le_sum (f := boltz E T) (fun z _ => (boltz_pos E T z).le) (optima_subset hx)
          refine le_trans ?_ (mul_le_mul_of_nonneg_left h1 (Real.exp_pos _).le)
          unfold boltz
          rw [← Real.exp_add]
          refine Real.exp_le_exp.2 ?_
          rw [← neg_div, ← add_div]
          refine div_le_div_of_nonneg_right ?_ hT.le
          linarith [hg x hx y hy hn]
      _ = (S \ optima S E).card * Real.exp (-(g / T)) := by rw [Finset.sum_const, nsmul_eq_mul]
      _ ≤ S.card * Real.exp (-(g / T)) := by
          refine mul_le_mul_of_nonneg_right ?_ (Real.exp_pos _).le
          exact_mod_cast Finset.card_le_card Finset.sdiff_subset
  linarith

/-- Laws close in `l1` give close probabilities. -/
theorem mass_ge_of_l1 {S A : Finset X} (hA : A ⊆ S) {p q : X → ℝ} (h1 : ∑ x ∈ S, p x = ∑ x ∈ S, q x) :
    mass q A - l1 S p q / 2 ≤ mass p A := by
  classical
  have e1 : mass q A - mass p A ≤ ∑ x ∈ A, |p x - q x| := by
    unfold mass
    rw [← Finset.sum_sub_distrib]
    exact Finset.sum_le_sum fun x _ => by rw [abs_sub_comm]; exact le_abs_self _
  have e2 : mass q A - mass p A ≤ ∑ x ∈ S \ A, |p x - q x| := by
    have : mass q A - mass p A = ∑ x ∈ S \ A, (p x - q x) := by
      rw [Finset.sum_sub_distrib]
      unfold mass
      rw [← Finset.sum_sdiff hA, ← Finset.sum_sdiff hA] at h1
      linarith
    rw [this]
    exact Finset.sum_le_sum fun x _ => le_abs_self _
  have e3 : l1 S p q = ∑ x ∈ S \ A, |p x - q x| + ∑ x ∈ A, |p x - q x| := by
    unfold l1
    rw [Finset.sum_sdiff hA]
  linarith

/-! ### Metropolis–Hastings steps -/

/-- What an annealed run needs to know of one step `K` made for the weights `π`: it is within `ρ` of a kernel
that preserves `π` and whatever the current sample draws a fresh one from `π` with probability `a`. -/
structure NearFresh (S : Finset X) (π : X → ℝ) (K : X → X → ℝ) (a ρ : ℝ) : Prop where
  stoch : Stochastic S K
  pos : ∀ x ∈ S, 0 < π x
  exact' : ∃ L, Stochastic S L ∧ Invariant S π L ∧ (∀ x ∈ S, ∑ y ∈ S, |K x y - L x y| ≤ ρ) ∧
    ∀ x ∈ S, ∀ y ∈ S, a * target S π y ≤ L x y

theorem PathMH.nearFresh [Fintype Ω] [DecidableEq X] {S : Finset X} {π : X → ℝ}
    {q q' : X → Ω → ℝ} {move : X → Ω → X} {rev : X → Ω → Ω} {lacc : X → Ω → ℝ}
    (H : PathMH S π q' move rev lacc) (hq : ∀ x ∈ S, IsProb (q x))
    (hqc : ∀ x ∈ S, ∀ ω, q x ω ≠ 0 → move x ω ∈ S)
    {ε : ℝ} (hclose : ∀ x ∈ S, ∑ ω, |q x ω - q' x ω| ≤ ε) {a : ℝ} (ha : 0 < a)
    (hreach : ∀ x ∈ S, ∀ y ∈ S, ∃ ω, move x ω = y ∧ a ≤ q' x ω ∧ a ≤ q' y (rev x ω))
    {tiny : ℝ} (ht : 0 ≤ tiny) {stepf : X → Ω → ℝ → X}
    (h : IsMHStep S tiny move lacc stepf) {K : X → X → ℝ}
    (hK : ∀ x ∈ S, ∀ y, K x y = lawU (q x) (stepf x) y) :
    NearFresh S π K a (2 * tiny + ε) := by
  have hA0 : ∀ tiny x ω, 0 ≤ acceptProb tiny (lacc x ω) := fun _ _ _ => acceptProb_nonneg _ _
  have hA1 : ∀ tiny x ω, acceptProb tiny (lacc x ω) ≤ 1 := fun _ _ _ => acceptProb_le_one _ _
  have hKeq : ∀ x ∈ S, ∀ y, K x y =
      mhKernel q move (fun x ω => acceptProb tiny (lacc x ω)) x y :=
    fun x hx y => (hK x hx y).trans (h.lawU_eq ht q x hx y)
  have hLs : Stochastic S (mhKernel q' move fun x ω => acceptProb 0 (lacc x ω)) :=
    stochastic_mhKernel H.prob H.closed (hA0 0) (hA1 0)
  refine ⟨Stochastic.congr hKeq (stochastic_mhKernel hq hqc (hA0 tiny) (hA1 tiny)), H.pi_pos,
    mhKernel q' move fun x ω => acceptProb 0 (lacc x ω), hLs,
    invariant_of_reversible H.reversible hLs, fun x hx => ?_, H.minor ha hreach⟩
  rw [Finset.sum_congr rfl fun y _ => by rw [hKeq x hx y]]
  calc _ ≤ ∑ y ∈ S, (|mhKernel q move (fun x ω => acceptProb tiny (lacc x ω)) x y -
            mhKernel q move (fun x ω => acceptProb 0 (lacc x ω)) x y| +
          |mhKernel q move (fun x ω => acceptProb 0 (lacc x ω)) x y -
            mhKernel q' move (fun x ω => acceptProb 0 (lacc x ω)) x y|) :=
        Finset.sum_le_sum fun y _ => abs_sub_le _ _ _
    _ ≤ 2 * tiny + ε := by
        rw [Finset.sum_add_distrib]
        exact add_le_add (mhKernel_tiny_close ht x (hq x hx))
          ((mhKernel_close (hA0 0) (hA1 0) x).trans (hclose x hx))

/-- The law at the end of an annealed run of such steps. -/
theorem NearFresh.anneal [DecidableEq X] {S : Finset X} {E : X → ℝ} {T : ℕ → ℝ} {K : ℕ → X → X → ℝ} {a ρ R lam : ℝ}
    (ha : 0 < a) (ha1 : a ≤ 1) (hlam : 0 ≤ lam) (h : ∀ t, NearFresh S (boltz E (T (t + 1))) (K t) a ρ)
    (hR : ∀ x ∈ S, ∀ y ∈ S, E x - E y ≤ R) (n : ℕ) (hT : ∀ t < n, |1 / T t - 1 / T (t + 1)| ≤ lam) :
    ∀ x ∈ S, l1 S (iterate S K n x) (target S (boltz E (T n))) ≤
      2 * (1 - a) ^ n + (2 * (lam * R) + ρ) / a := by
  intro x hx
  have hS : S.Nonempty := ⟨x, hx⟩
  have hR0 : 0 ≤ R := by have := hR x hx x hx; linarith
  choose L hL using fun t => (h t).exact'
  have hρ : 0 ≤ ρ := (Finset.sum_nonneg fun _ _ => abs_nonneg _).trans ((hL 0).2.2.1 x hx)
  have := anneal_bound (m := 1) (π := fun t => boltz E (T t)) (K := K) (L := L) (ρ := ρ) (δ := a)
    (η := 2 * (lam * R)) (fun t y _ => boltz_pos E _ y) (fun t => (h t).stoch) (fun t => (hL t).1)
    (fun t => (hL t).2.1) hρ (by positivity) (fun t => (hL t).2.2.1) ha ha1
    (fun t => target S (boltz E (T (t + 1)))) (fun t => sum_target (sum_boltz_pos hS E _)) n
    (fun t _ y hy z hz => by
      have e : iterate S (fun i => L (t + i)) 1 y z = L t y z := by simp [iterate, comp, hy]
      rw [e]
      exact (hL t).2.2.2 y hy z hz)
    (fun t htn => (l1_boltz hS hR _ _).trans
      (mul_le_mul_of_nonneg_left (mul_le_mul_of_nonneg_right (hT t htn) hR0) (by norm_num))) x hx
  simpa using this

/-- Whatever the current sample, the next one is in `A` with about `a` times the probability of `A`. -/
theorem NearFresh.hit {S : Finset X} {π : X → ℝ} {K : X → X → ℝ} {a ρ : ℝ} (h : NearFresh S π K a ρ)
    {A : Finset X} (hA : A ⊆ S) : ∀ x ∈ S, a * mass (target S π) A - ρ ≤ mass (K x) A := by
  intro x hx
  obtain ⟨L, _, _, hc, hm⟩ := h.exact'
  have h1 : a * mass (target S π) A ≤ mass (L x) A := by
    unfold mass
    rw [Finset.mul_sum]
    exact Finset.sum_le_sum fun y hy => hm x hx y (hA hy)
  have h2 : mass (L x) A - mass (K x) A ≤ ∑ y ∈ S, |K x y - L x y| := by
    unfold mass
    rw [← Finset.sum_sub_distrib]
    refine le_trans (Finset.sum_le_sum fun y _ => ?_)
      (Finset.sum_le_sum_of_subset_of_nonneg hA fun y _ _ => abs_nonneg (K x y - L x y))
    rw [abs_sub_comm]; exact le_abs_self _
  linarith [hc x hx]

/-! ### Trajectories -/

theorem sum_paths_succ {S : Finset X} {L : ℕ} (F : (Fin (L + 1) → X) → ℝ) :
    ∑ v ∈ paths S (L + 1), F v = ∑ y ∈ S, ∑ w ∈ paths S L, F (Fin.cons y w) := by
  rw [← Finset.sum_product']
  refine Finset.sum_nbij' (fun v => (v 0, fun i => v i.succ)) (fun p => Fin.cons p.1 p.2) ?_ ?_ ?_ ?_ ?_
  · intro v hv
    have hv := Fintype.mem_piFinset.1 hv
    exact Finset.mem_product.2 ⟨hv 0, Fintype.mem_piFinset.2 fun i => hv i.succ⟩
  · intro p hp
    obtain ⟨h1, h2⟩ := Finset.mem_product.1 hp
    refine Fintype.mem_piFinset.2 fun i => ?_
    refine Fin.cases ?_ (fun i => ?_) i
    · simpa using h1
    · simpa using Fintype.mem_piFinset.1 h2 i
  · intro v _
    exact Fin.cons_self_tail v
  · intro p _
    simp
  · intro v _
    exact congrArg F (Fin.cons_self_tail v).symm

/-- The probabilities of the trajectories add up to one. -/
theorem sum_trajProb {S : Finset X} (L : ℕ) : ∀ {K : ℕ → X → X → ℝ}, (∀ t, Stochastic S (K t)) →
    ∀ x ∈ S, ∑ v ∈ paths S L, trajProb K L x v = 1 := by
  induction L with
  | zero => intro K _ x _; simp [paths, trajProb]
  | succ L ih =>
    intro K hK x hx
    rw [sum_paths_succ]
    simp only [trajProb, Fin.cons_zero, Fin.cons_succ, ← Finset.mul_sum]
    rw [← (hK 0).2.1 x hx]
    exact Finset.sum_congr rfl fun y hy => by rw [ih (fun t => hK (t + 1)) y hy, mul_one]

theorem trajProb_nonneg {S : Finset X} (L : ℕ) : ∀ {K : ℕ → X → X → ℝ}, (∀ t, Stochastic S (K t)) →
    ∀ x ∈ S, ∀ v ∈ paths S L, 0 ≤ trajProb K L x v := by
  induction L with
  | zero => intro K _ x _ v _; simp [trajProb]
  | succ L ih =>
    intro K hK x hx v hv
    have hv := Fintype.mem_piFinset.1 hv
    exact mul_nonneg ((hK 0).1 x hx _)
      (ih (fun t => hK (t + 1)) _ (hv 0) _ (Fintype.mem_piFinset.2 fun i => hv i.succ))

/-- The probability that a run never is in `A` after the steps where someone looks. -/
theorem trajProb_miss [DecidableEq X] {S A : Finset X} (L : ℕ) :
    ∀ {K : ℕ → X → X → ℝ} {look : ℕ → Prop} [DecidablePred look] {c : ℕ → ℝ}, (∀ t, Stochastic S (K t)) →
    (∀ t, look t → ∀ x ∈ S, mass (K t x) (S \ A) ≤ c t) → ∀ x ∈ S,
    ∑ v ∈ (paths S L).filter (fun v => ∀ i : Fin L, look i → v i ∉ A), trajProb K L x v ≤
      ∏ i : Fin L, if look i then c i else 1 := by
  induction L with
  | zero => intro K look _ c _ _ x _; simp [paths, trajProb]
  | succ L ih =>
    intro K look _ c hK hc x hx
    rw [Finset.sum_filter, sum_paths_succ, Fin.prod_univ_succ]
    have hih := fun y hy => ih (K := fun t => K (t + 1)) (look := fun t => look (t + 1)) (c := fun t => c (t + 1))
      (fun t => hK (t + 1)) (fun t => hc (t + 1)) y hy
    set P := ∏ i : Fin L, if look (i + 1) then c (i + 1) else 1 with hP
    have hP' : (∏ i : Fin L, if look (i.succ : Fin (L + 1)) then c (i.succ : Fin (L + 1)) else 1) = P := by
      rw [hP]; exact Finset.prod_congr rfl fun i _ => by simp
    have hP0 : 0 ≤ P := by
      refine le_trans (Finset.sum_nonneg fun v hv => ?_) (hih x hx)
      exact trajProb_nonneg L (fun t => hK (t + 1)) x hx v (Finset.mem_filter.1 hv).1
    have hterm : ∀ y ∈ S, ∑ w ∈ paths S L, (if ∀ i : Fin (L + 1), look i → (Fin.cons y w : Fin (L + 1) → X) i ∉ A then
          trajProb K (L + 1) x (Fin.cons y w) else 0) ≤
        if look 0 ∧ y ∈ A then 0 else K 0 x y * P := by
      intro y hy
      split_ifs with h
      · refine le_of_eq (Finset.sum_eq_zero fun w _ => if_neg fun h' => ?_)
        have := h' 0 (by simpa using h.1)
        simp only [Fin.cons_zero] at this
        exact this h.2
      · have := hih y hy
        rw [Finset.sum_filter] at this
        refine le_trans ?_ (mul_le_mul_of_nonneg_left this ((hK 0).1 x hx y))
        rw [Finset.mul_sum]
        refine Finset.sum_le_sum fun w hw => ?_
        have hnn := mul_nonneg ((hK 0).1 x hx y) (trajProb_nonneg L (fun t => hK (t + 1)) y hy w hw)
        simp only [trajProb, Fin.cons_zero, Fin.cons_succ]
        by_cases h1 : ∀ i : Fin L, look (i + 1) → w i ∉ A
        · rw [if_pos h1]
          split_ifs
          · exact le_rfl
          · exact hnn
        · rw [if_neg h1, mul_zero, if_neg]
          intro h2
          exact h1 fun i hi => by
            have := h2 i.succ (by simpa using hi)
            simpa using this
    refine (Finset.sum_le_sum hterm).trans ?_
    rw [hP']
    by_cases h0 : look 0
    · have : (look ((0 : Fin (L + 1)) : ℕ)) := by simpa using h0
      rw [if_pos this]
      simp only [h0, true_and]
      have e : ∑ y ∈ S, (if y ∈ A then 0 else K 0 x y * P) = mass (K 0 x) (S \ A) * P := by
        unfold mass
        rw [Finset.sum_mul, ← Finset.filter_notMem_eq_sdiff, Finset.sum_filter]
        exact Finset.sum_congr rfl fun y _ => by split_ifs <;> simp_all
      rw [e]
      exact mul_le_mul_of_nonneg_right (by simpa using hc 0 h0 x hx) hP0
    · have : ¬ (look ((0 : Fin (L + 1)) : ℕ)) := by simpa using h0
      rw [if_neg this, one_mul]
      simp only [h0, false_and, if_false]
      rw [← Finset.sum_mul, (hK 0).2.1 x hx, one_mul]

end Discs.Spec
