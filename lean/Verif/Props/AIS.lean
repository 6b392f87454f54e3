import Mathlib.Data.Fin.Tuple.Basic
import Mathlib.Logic.Equiv.Fin.Basic
import Mathlib.Algebra.BigOperators.Field
import Verif.Model.Experiment
import Verif.Props.Gibbs

/-!
# Property C53: the annealed importance sampling estimate of the experiment is unbiased

The specification: a chain starts from the normalised weights `exp (score 0 ·)` and its step `k + 1` is
drawn from a kernel `K k` that leaves `exp (score ((k+1)/L) ·)` invariant.  The chains of the batch may
depend on each other in any way; only the law of each single chain matters.
-/

namespace Discs

open Finset Spec

variable {X Ω : Type*}

namespace Spec

/-- Probability of the path `p`: initial weight times the transitions. -/
def pathProb (π : X → ℝ) (K : ℕ → X → X → ℝ) (n : ℕ) (p : Fin (n + 1) → X) : ℝ :=
  π (p 0) * ∏ i : Fin n, K i (p i.castSucc) (p i.succ)

/-- Normaliser of the weights `exp f` over the states `S`. -/
noncomputable def normaliser (S : Finset X) (f : X → ℝ) : ℝ := ∑ x ∈ S, Real.exp (f x)

end Spec

/-- The path `p` as a sequence (constant after its end). -/
private def ext {n : ℕ} (p : Fin (n + 1) → X) (i : ℕ) : X := p ⟨min i n, by omega⟩

private theorem ext_snoc {n : ℕ} (p : Fin (n + 1) → X) (y : X) (i : ℕ) (h : i ≤ n) :
    ext (Fin.snoc (α := fun _ => X) p y : Fin (n + 2) → X) i = ext p i := by
  have h1 : (⟨min i (n + 1), by omega⟩ : Fin (n + 2)) = Fin.castSucc ⟨min i n, by omega⟩ := by
    ext; simp; omega
  rw [ext, h1, Fin.snoc_castSucc, ext]

/-- Log-weight of the sequence `q` after `n` steps. -/
private noncomputable def logWt (score : ℝ → X → ℝ) (L : ℕ) (q : ℕ → X) (n : ℕ) : ℝ :=
  ∑ k ∈ range n, (score ((k + 1 : ℕ) / (L : ℝ)) (q k) - score ((k : ℕ) / (L : ℝ)) (q k))

/-- What the loop computes. -/
private theorem aisLoop_eq {B : ℕ} (score : ℝ → X → ℝ) (L : ℕ) (xs : ℕ → Fin B → X) (n : ℕ) :
    aisLoop score L xs n = ⟨(n : ℝ) / L, fun b => logWt score L (fun k => xs k b) n,
      (List.range n).map fun k =>
        logsumexp (fun b => logWt score L (fun k => xs k b) (k + 1)) - Real.log B⟩ := by
  induction n with
  | zero => simp [aisLoop, logWt]
  | succ n ih =>
    have h : aisLoop score L xs (n + 1) = aisBody score L xs (aisLoop score L xs n) (n + 1) := by
      rw [aisLoop, aisLoop, List.range'_1_concat, List.foldl_append, List.foldl_cons, List.foldl_nil,
        show 1 + n = n + 1 from by omega]
    have hw : (fun b => logWt score L (fun k => xs k b) n + score (((n + 1 : ℕ) : ℝ) / L) (xs n b) -
        score ((n : ℝ) / L) (xs n b)) = fun b => logWt score L (fun k => xs k b) (n + 1) := by
      funext b
      rw [logWt, logWt, sum_range_succ]
      ring
    rw [h, ih]
    simp only [aisBody, Nat.add_sub_cancel, List.range_succ, List.map_append, List.map_cons,
      List.map_nil, mul_one]
    simp only [hw]

/-- The weight of one chain after the run. -/
theorem aisLoop_one (score : ℝ → X → ℝ) {L : ℕ} (hL : 0 < L) (q : ℕ → X) :
    Real.exp ((aisLoop score L (fun k (_ : Fin 1) => q k) L).logZ.getD (L - 1) 0) =
      ∏ k ∈ range L, Real.exp (score ((k + 1 : ℕ) / (L : ℝ)) (q k) - score ((k : ℕ) / (L : ℝ)) (q k)) := by
  rw [aisLoop_eq, List.getD_eq_getElem?_getD, List.getElem?_map, List.getElem?_range (by omega)]
  rw [← Real.exp_sum]
  simp [logsumexp, logWt, show L - 1 + 1 = L by omega]

section Finite

variable [Fintype X]

private theorem sum_snoc {n : ℕ} (F : (Fin (n + 2) → X) → ℝ) :
    ∑ p, F p = ∑ p : Fin (n + 1) → X, ∑ y, F (Fin.snoc (α := fun _ => X) p y) := by
  rw [← Equiv.sum_comp (Fin.snocEquiv fun _ : Fin (n + 2) => X) F, Fintype.sum_prod_type,
    sum_comm]
  rfl

omit [Fintype X] in
private theorem pathProb_snoc (π : X → ℝ) (K : ℕ → X → X → ℝ) (n : ℕ) (p : Fin (n + 1) → X) (y : X) :
    pathProb π K (n + 1) (Fin.snoc (α := fun _ => X) p y) =
      pathProb π K n p * K n (p (Fin.last n)) y := by
  unfold pathProb
  rw [Fin.prod_univ_castSucc, ← mul_assoc]
  congr 1
  · congr 1
    refine prod_congr rfl fun i _ => ?_
    rw [Fin.snoc_castSucc, Fin.succ_castSucc, Fin.snoc_castSucc]
    rfl
  · rw [Fin.snoc_castSucc, Fin.succ_last, Fin.snoc_last]
    rfl

/-- One more step: the function of the last sample is replaced by its weighted average under the step. -/
private theorem tilt_step (score : ℝ → X → ℝ) (L : ℕ) (π : X → ℝ) (K : ℕ → X → X → ℝ) (n : ℕ) (g : X → ℝ) :
    ∑ p : Fin (n + 2) → X, pathProb π K (n + 1) p * Real.exp (logWt score L (ext p) (n + 1)) *
      g (p (Fin.last (n + 1))) =
    ∑ p : Fin (n + 1) → X, pathProb π K n p * Real.exp (logWt score L (ext p) n) *
      (Real.exp (score ((n + 1 : ℕ) / (L : ℝ)) (p (Fin.last n)) -
        score ((n : ℕ) / (L : ℝ)) (p (Fin.last n))) * ∑ y, K n (p (Fin.last n)) y * g y) := by
  rw [sum_snoc]
  have hstep : ∀ (p : Fin (n + 1) → X),
      ∑ y, pathProb π K (n + 1) (Fin.snoc (α := fun _ => X) p y) *
        Real.exp (logWt score L (ext (Fin.snoc (α := fun _ => X) p y)) (n + 1)) *
        g (Fin.snoc (α := fun _ => X) p y (Fin.last (n + 1))) =
      pathProb π K n p * Real.exp (logWt score L (ext p) n) *
        (Real.exp (score ((n + 1 : ℕ) / (L : ℝ)) (p (Fin.last n)) -
          score ((n : ℕ) / (L : ℝ)) (p (Fin.last n))) * ∑ y, K n (p (Fin.last n)) y * g y) := by
    intro p
    rw [mul_sum, mul_sum]
    refine sum_congr rfl fun y _ => ?_
    have hlast : ext p n = p (Fin.last n) := by
      rw [ext]; congr 1; ext; simp
    have hw : logWt score L (ext (Fin.snoc (α := fun _ => X) p y)) (n + 1) =
        logWt score L (ext p) n + (score ((n + 1 : ℕ) / (L : ℝ)) (p (Fin.last n)) -
          score ((n : ℕ) / (L : ℝ)) (p (Fin.last n))) := by
      rw [logWt, logWt, sum_range_succ, ext_snoc p y n le_rfl, hlast]
      congr 1
      exact sum_congr rfl fun k hk => by rw [ext_snoc p y k (mem_range.1 hk).le]
    rw [pathProb_snoc, hw, Real.exp_add, Fin.snoc_last]
    ring
  simp only [hstep]

private theorem tilt_zero (score : ℝ → X → ℝ) (L : ℕ) (π : X → ℝ) (K : ℕ → X → X → ℝ)
    (hπ : ∀ x, π x = Real.exp (score 0 x) / normaliser univ (score 0)) (g : X → ℝ) :
    ∑ p : Fin 1 → X, pathProb π K 0 p * Real.exp (logWt score L (ext p) 0) * g (p (Fin.last 0)) =
      (∑ x, Real.exp (score ((0 : ℕ) / (L : ℝ)) x) * g x) / normaliser univ (score 0) := by
  rw [← Equiv.sum_comp (Equiv.funUnique (Fin 1) X).symm, sum_div]
  refine sum_congr rfl fun x _ => ?_
  simp [pathProb, logWt, hπ]
  ring

private theorem tilted (score : ℝ → X → ℝ) (L : ℕ) (π : X → ℝ) (K : ℕ → X → X → ℝ)
    (hπ : ∀ x, π x = Real.exp (score 0 x) / normaliser univ (score 0))
    (hinv : ∀ k < L, Invariant univ (fun x => Real.exp (score ((k + 1 : ℕ) / (L : ℝ)) x)) (K k))
    (n : ℕ) (hn : n ≤ L) (g : X → ℝ) :
    ∑ p : Fin (n + 1) → X, pathProb π K n p * Real.exp (logWt score L (ext p) n) * g (p (Fin.last n)) =
      (∑ x, Real.exp (score ((n : ℕ) / (L : ℝ)) x) * g x) / normaliser univ (score 0) := by
  induction n generalizing g with
  | zero => exact tilt_zero score L π K hπ g
  | succ n ih =>
    rw [tilt_step]
    rw [ih (by omega) fun x => Real.exp (score ((n + 1 : ℕ) / (L : ℝ)) x - score ((n : ℕ) / (L : ℝ)) x) *
      ∑ y, K n x y * g y]
    congr 1
    have hx : ∀ x, Real.exp (score ((n : ℕ) / (L : ℝ)) x) *
        (Real.exp (score ((n + 1 : ℕ) / (L : ℝ)) x - score ((n : ℕ) / (L : ℝ)) x) * ∑ y, K n x y * g y) =
        ∑ y, Real.exp (score ((n + 1 : ℕ) / (L : ℝ)) x) * K n x y * g y := by
      intro x
      rw [← mul_assoc, ← Real.exp_add, add_sub_cancel, mul_sum]
      exact sum_congr rfl fun y _ => by ring
    simp only [hx]
    rw [sum_comm]
    refine sum_congr rfl fun y _ => ?_
    rw [← sum_mul, hinv n (by omega) y (mem_univ y)]

/-- As `tilted`, for kernels that keep their target up to `ε` of its mass and weights that change by at most the factor
`exp r` in a step. -/
private theorem tilted_near (score : ℝ → X → ℝ) (L : ℕ) (π : X → ℝ) (K : ℕ → X → X → ℝ) {ε r : ℝ} (hε : 0 ≤ ε)
    (hπ : ∀ x, π x = Real.exp (score 0 x) / normaliser univ (score 0)) (hZ : 0 < normaliser univ (score 0))
    (hK0 : ∀ k < L, ∀ x y, 0 ≤ K k x y) (hK : ∀ k < L, ∀ x, ∑ y, K k x y = 1)
    (hr : ∀ k < L, ∀ x, |score ((k + 1 : ℕ) / (L : ℝ)) x - score ((k : ℕ) / (L : ℝ)) x| ≤ r)
    (hinv : ∀ k < L, NearlyInvariant univ (fun x => Real.exp (score ((k + 1 : ℕ) / (L : ℝ)) x)) (K k) ε)
    (n : ℕ) (hn : n ≤ L) : normaliser univ (score ((n : ℕ) / (L : ℝ))) ≤ normaliser univ (score 0) * Real.exp (n * r) ∧
    ∀ (g : X → ℝ) (G : ℝ), (∀ x, |g x| ≤ G) →
    |∑ p : Fin (n + 1) → X, pathProb π K n p * Real.exp (logWt score L (ext p) n) * g (p (Fin.last n)) -
      (∑ x, Real.exp (score ((n : ℕ) / (L : ℝ)) x) * g x) / normaliser univ (score 0)| ≤
        n * ε * Real.exp (n * r) * G := by
  induction n with
  | zero =>
    refine ⟨by simp, fun g G _ => ?_⟩
    rw [tilt_zero score L π K hπ g]
    simp
  | succ n ih =>
    obtain ⟨h1, h2⟩ := ih (by omega)
    have hZn : normaliser univ (score ((n + 1 : ℕ) / (L : ℝ))) ≤
        normaliser univ (score 0) * Real.exp ((n + 1 : ℕ) * r) := by
      calc normaliser univ (score ((n + 1 : ℕ) / (L : ℝ)))
          ≤ normaliser univ (score ((n : ℕ) / (L : ℝ))) * Real.exp r := by
            unfold normaliser
            rw [sum_mul]
            refine sum_le_sum fun x _ => ?_
            rw [← Real.exp_add]
            exact Real.exp_le_exp.2 (by linarith [(abs_le.1 (hr n (by omega) x)).2])
        _ ≤ normaliser univ (score 0) * Real.exp (n * r) * Real.exp r :=
            mul_le_mul_of_nonneg_right h1 (Real.exp_pos _).le
        _ = _ := by rw [mul_assoc, ← Real.exp_add]; push_cast; ring_nf
    refine ⟨hZn, fun g G hg => ?_⟩
    rw [tilt_step]
    set g' : X → ℝ := fun x => Real.exp (score ((n + 1 : ℕ) / (L : ℝ)) x - score ((n : ℕ) / (L : ℝ)) x) *
      ∑ y, K n x y * g y with hg'
    have hav : ∀ x, |∑ y, K n x y * g y| ≤ G := fun x => by
      calc |∑ y, K n x y * g y| ≤ ∑ y, |K n x y * g y| := abs_sum_le_sum_abs _ _
        _ ≤ ∑ y, K n x y * G := sum_le_sum fun y _ => by
            rw [abs_mul, abs_of_nonneg (hK0 n (by omega) x y)]
            exact mul_le_mul_of_nonneg_left (hg y) (hK0 n (by omega) x y)
        _ = G := by rw [← sum_mul, hK n (by omega) x, one_mul]
    have hgb : ∀ x, |g' x| ≤ Real.exp r * G := fun x => by
      rw [hg', abs_mul, abs_of_pos (Real.exp_pos _)]
      exact mul_le_mul (Real.exp_le_exp.2 (abs_le.1 (hr n (by omega) x)).2) (hav x) (abs_nonneg _) (Real.exp_pos _).le
    have h3 := h2 g' _ hgb
    have hx : ∑ x, Real.exp (score ((n : ℕ) / (L : ℝ)) x) * g' x =
        ∑ y, (∑ x, Real.exp (score ((n + 1 : ℕ) / (L : ℝ)) x) * K n x y) * g y := by
      have : ∀ x, Real.exp (score ((n : ℕ) / (L : ℝ)) x) * g' x =
          ∑ y, Real.exp (score ((n + 1 : ℕ) / (L : ℝ)) x) * K n x y * g y := by
        intro x
        rw [hg', ← mul_assoc, ← Real.exp_add, add_sub_cancel, mul_sum]
        exact sum_congr rfl fun y _ => by ring
      simp only [this]
      rw [sum_comm]
      exact sum_congr rfl fun y _ => by rw [← sum_mul]
    rw [hx] at h3
    set A := ∑ y, (∑ x, Real.exp (score ((n + 1 : ℕ) / (L : ℝ)) x) * K n x y) * g y with hA
    set A' := ∑ x, Real.exp (score ((n + 1 : ℕ) / (L : ℝ)) x) * g x with hA'
    have hG : 0 ≤ G ∨ IsEmpty X := by
      by_cases hX : Nonempty X
      · exact Or.inl ((abs_nonneg _).trans (hg hX.some))
      · exact Or.inr (not_nonempty_iff.1 hX)
    have hG : 0 ≤ G := hG.resolve_right fun h => by
      have : normaliser univ (score 0) = 0 := by simp [normaliser]
      linarith
    have h4 : |A - A'| ≤ ε * normaliser univ (score ((n + 1 : ℕ) / (L : ℝ))) * G := by
      rw [hA, hA', ← sum_sub_distrib]
      calc |∑ y, ((∑ x, Real.exp (score ((n + 1 : ℕ) / (L : ℝ)) x) * K n x y) * g y -
            Real.exp (score ((n + 1 : ℕ) / (L : ℝ)) y) * g y)|
          ≤ ∑ y, |(∑ x, Real.exp (score ((n + 1 : ℕ) / (L : ℝ)) x) * K n x y) -
            Real.exp (score ((n + 1 : ℕ) / (L : ℝ)) y)| * G := by
            refine (abs_sum_le_sum_abs _ _).trans (sum_le_sum fun y _ => ?_)
            rw [← sub_mul, abs_mul]
            exact mul_le_mul_of_nonneg_left (hg y) (abs_nonneg _)
        _ ≤ _ := by
            rw [← sum_mul]
            exact mul_le_mul_of_nonneg_right (hinv n (by omega)) hG
    have h5 : |A / normaliser univ (score 0) - A' / normaliser univ (score 0)| ≤ ε * Real.exp ((n + 1 : ℕ) * r) * G := by
      rw [← sub_div, abs_div, abs_of_pos hZ, div_le_iff₀ hZ]
      refine h4.trans ?_
      calc ε * normaliser univ (score ((n + 1 : ℕ) / (L : ℝ))) * G
          ≤ ε * (normaliser univ (score 0) * Real.exp ((n + 1 : ℕ) * r)) * G :=
            mul_le_mul_of_nonneg_right (mul_le_mul_of_nonneg_left hZn hε) hG
        _ = _ := by ring
    refine (abs_sub_le _ (A / normaliser univ (score 0)) _).trans ((add_le_add h3 h5).trans (le_of_eq ?_))
    rw [show ((n + 1 : ℕ) : ℝ) * r = n * r + r by push_cast; ring, Real.exp_add]
    push_cast
    ring

private theorem prefix_marginal (score : ℝ → X → ℝ) (L : ℕ) (π : X → ℝ) (K : ℕ → X → X → ℝ)
    (hK : ∀ k < L, ∀ x, ∑ y, K k x y = 1) (n m : ℕ) (h : n + m ≤ L) :
    ∑ p : Fin (n + m + 1) → X, pathProb π K (n + m) p * Real.exp (logWt score L (ext p) n) =
      ∑ p : Fin (n + 1) → X, pathProb π K n p * Real.exp (logWt score L (ext p) n) := by
  induction m with
  | zero => rfl
  | succ m ih =>
    rw [← ih (by omega)]
    show ∑ p : Fin (n + m + 2) → X, pathProb π K (n + m + 1) p * Real.exp (logWt score L (ext p) n) = _
    rw [sum_snoc]
    refine sum_congr rfl fun p _ => ?_
    have : ∀ y, pathProb π K (n + m + 1) (Fin.snoc (α := fun _ => X) p y) *
        Real.exp (logWt score L (ext (Fin.snoc (α := fun _ => X) p y)) n) =
        pathProb π K (n + m) p * Real.exp (logWt score L (ext p) n) * K (n + m) (p (Fin.last (n + m))) y := by
      intro y
      have hw : logWt score L (ext (Fin.snoc (α := fun _ => X) p y)) n = logWt score L (ext p) n :=
        sum_congr rfl fun k hk => by
          rw [ext_snoc p y k (by have := mem_range.1 hk; omega)]
      rw [pathProb_snoc, hw]
      ring
    simp only [this]
    rw [← mul_sum, hK (n + m) (by omega), mul_one]

private theorem sum_law_mul [Fintype Ω] {Y : Type*} [Fintype Y] [DecidableEq Y] (p : Ω → ℝ) (f : Ω → Y)
    (F : Y → ℝ) : ∑ ω, p ω * F (f ω) = ∑ y, law p f y * F y := by
  simp only [law, sum_mul]
  rw [sum_comm]
  refine sum_congr rfl fun ω _ => ?_
  simp [ite_mul]

private theorem ais_reduce [DecidableEq X] [Fintype Ω] {B : ℕ} (hB : 0 < B) (score : ℝ → X → ℝ)
    (L : ℕ) (K : ℕ → X → X → ℝ) (hK : ∀ k < L, ∀ x, ∑ y, K k x y = 1)
    (P : Ω → ℝ) (w : Ω → Fin (L + 1) → Fin B → X)
    (hlaw : ∀ b path, law P (fun ω i => w ω i b) path =
      pathProb (fun x => Real.exp (score 0 x) / normaliser univ (score 0)) K L path)
    (n : ℕ) (hn : n < L) :
    ∑ ω, P ω * Real.exp ((aisLoop score L (fun k b => w ω ⟨min k L, by omega⟩ b) L).logZ.getD n 0) =
      ∑ p : Fin (n + 2) → X, pathProb (fun x => Real.exp (score 0 x) / normaliser univ (score 0)) K (n + 1) p *
        Real.exp (logWt score L (ext p) (n + 1)) := by
  set π := fun x => Real.exp (score 0 x) / normaliser univ (score 0) with hπ
  have hBr : (B : ℝ) ≠ 0 := by exact_mod_cast hB.ne'
  have hval : ∀ ω, Real.exp ((aisLoop score L (fun k b => w ω ⟨min k L, by omega⟩ b) L).logZ.getD n 0) =
      (∑ b, Real.exp (logWt score L (ext fun i => w ω i b) (n + 1))) / B := by
    intro ω
    rw [aisLoop_eq]
    have : (((List.range L).map fun k => logsumexp (fun b => logWt score L
        (fun k => w ω ⟨min k L, by omega⟩ b) (k + 1)) - Real.log B).getD n 0) =
        logsumexp (fun b => logWt score L (fun k => w ω ⟨min k L, by omega⟩ b) (n + 1)) - Real.log B := by
      rw [List.getD_eq_getElem?_getD, List.getElem?_map, List.getElem?_range hn]
      rfl
    simp only [this]
    have hpos : 0 < ∑ b : Fin B, Real.exp (logWt score L (ext fun i => w ω i b) (n + 1)) := by
      refine sum_pos (fun b _ => Real.exp_pos _) ⟨⟨0, hB⟩, mem_univ _⟩
    have hB' : (0 : ℝ) < B := by exact_mod_cast hB
    rw [Real.exp_sub, logsumexp, Real.exp_log hB']
    congr 1
    exact Real.exp_log hpos
  simp only [hval]
  have hswap : ∑ ω, P ω * ((∑ b, Real.exp (logWt score L (ext fun i => w ω i b) (n + 1))) / B) =
      (∑ b : Fin B, ∑ ω, P ω * Real.exp (logWt score L (ext fun i => w ω i b) (n + 1))) / B := by
    rw [sum_comm, sum_div]
    exact sum_congr rfl fun ω _ => by rw [← mul_sum, mul_div_assoc]
  rw [hswap]
  have hone : ∀ b : Fin B, ∑ ω, P ω * Real.exp (logWt score L (ext fun i => w ω i b) (n + 1)) =
      ∑ p : Fin (n + 2) → X, pathProb π K (n + 1) p * Real.exp (logWt score L (ext p) (n + 1)) := by
    intro b
    rw [sum_law_mul P (fun ω i => w ω i b) fun q => Real.exp (logWt score L (ext q) (n + 1))]
    simp only [hlaw b]
    obtain ⟨m, hm⟩ : ∃ m, L = n + 1 + m := ⟨L - (n + 1), by omega⟩
    have hpm := prefix_marginal score L π K hK (n + 1) m (by omega)
    have hcast : ∀ (N : ℕ), N = L → ∑ q : Fin (N + 1) → X,
        pathProb π K N q * Real.exp (logWt score L (ext q) (n + 1)) =
        ∑ q : Fin (L + 1) → X, pathProb π K L q * Real.exp (logWt score L (ext q) (n + 1)) := by
      rintro N rfl; rfl
    rw [hcast _ hm.symm] at hpm
    exact hpm
  simp only [hone, sum_const, card_univ, Fintype.card_fin, nsmul_eq_mul]
  field_simp

private theorem ais_unbiased_univ [DecidableEq X] [Fintype Ω] {B : ℕ} (hB : 0 < B) (score : ℝ → X → ℝ)
    (L : ℕ) (K : ℕ → X → X → ℝ) (hK : ∀ k < L, ∀ x, ∑ y, K k x y = 1)
    (hinv : ∀ k < L, Invariant univ (fun x => Real.exp (score ((k + 1 : ℕ) / (L : ℝ)) x)) (K k))
    (P : Ω → ℝ) (w : Ω → Fin (L + 1) → Fin B → X)
    (hlaw : ∀ b path, law P (fun ω i => w ω i b) path =
      pathProb (fun x => Real.exp (score 0 x) / normaliser univ (score 0)) K L path)
    (n : ℕ) (hn : n < L) :
    ∑ ω, P ω * Real.exp ((aisLoop score L (fun k b => w ω ⟨min k L, by omega⟩ b) L).logZ.getD n 0) =
      normaliser univ (score ((n + 1 : ℕ) / (L : ℝ))) / normaliser univ (score 0) := by
  rw [ais_reduce hB score L K hK P w hlaw n hn]
  have ht := tilted score L _ K (fun _ => rfl) hinv (n + 1) (by omega) fun _ => 1
  simp only [mul_one] at ht
  exact ht

private theorem ais_near_univ [DecidableEq X] [Fintype Ω] {B : ℕ} (hB : 0 < B) (score : ℝ → X → ℝ)
    (L : ℕ) (K : ℕ → X → X → ℝ) {ε r : ℝ} (hε : 0 ≤ ε) (hZ : 0 < normaliser univ (score 0))
    (hK0 : ∀ k < L, ∀ x y, 0 ≤ K k x y) (hK : ∀ k < L, ∀ x, ∑ y, K k x y = 1)
    (hr : ∀ k < L, ∀ x, |score ((k + 1 : ℕ) / (L : ℝ)) x - score ((k : ℕ) / (L : ℝ)) x| ≤ r)
    (hinv : ∀ k < L, NearlyInvariant univ (fun x => Real.exp (score ((k + 1 : ℕ) / (L : ℝ)) x)) (K k) ε)
    (P : Ω → ℝ) (w : Ω → Fin (L + 1) → Fin B → X)
    (hlaw : ∀ b path, law P (fun ω i => w ω i b) path =
      pathProb (fun x => Real.exp (score 0 x) / normaliser univ (score 0)) K L path)
    (n : ℕ) (hn : n < L) :
    |∑ ω, P ω * Real.exp ((aisLoop score L (fun k b => w ω ⟨min k L, by omega⟩ b) L).logZ.getD n 0) -
      normaliser univ (score ((n + 1 : ℕ) / (L : ℝ))) / normaliser univ (score 0)| ≤
      (n + 1 : ℕ) * ε * Real.exp ((n + 1 : ℕ) * r) := by
  rw [ais_reduce hB score L K hK P w hlaw n hn]
  have ht := (tilted_near score L _ K hε (fun _ => rfl) hZ hK0 hK hr hinv (n + 1) (by omega)).2 (fun _ => 1) 1
    (fun _ => by simp)
  simp only [mul_one] at ht
  exact ht

end Finite

/-- **C53.**  Let each chain of the batch be a chain started from `exp (score 0)` whose `k+1`-st step leaves
`exp (score ((k+1)/L))` invariant.  Then for every step `n + 1` of the run, the exponential of the value the
experiment appends to `logz_finals` has expectation `Z_{n+1} / Z_0`; the last entry estimates `Z_1 / Z_0`
of the full model. -/
theorem ais_unbiased [DecidableEq X] [Fintype Ω] {B : ℕ} (hB : 0 < B) (S : Finset X) (score : ℝ → X → ℝ)
    (L : ℕ) (K : ℕ → X → X → ℝ) (hK : ∀ k < L, Stochastic S (K k))
    (hinv : ∀ k < L, Invariant S (fun x => Real.exp (score ((k + 1 : ℕ) / (L : ℝ)) x)) (K k))
    (P : Ω → ℝ) (w : Ω → Fin (L + 1) → Fin B → S)
    (hlaw : ∀ b (path : Fin (L + 1) → S), law P (fun ω i => w ω i b) path =
      pathProb (fun x => Real.exp (score 0 x) / normaliser S (score 0)) K L fun i => (path i : X))
    (n : ℕ) (hn : n < L) :
    ∑ ω, P ω * Real.exp ((aisLoop score L (fun k b => (w ω ⟨min k L, by omega⟩ b : X)) L).logZ.getD n 0) =
      normaliser S (score ((n + 1 : ℕ) / (L : ℝ))) / normaliser S (score 0) := by
  have hnorm : ∀ f : X → ℝ, normaliser (univ : Finset S) (fun x => f x) = normaliser S f := fun f => by
    rw [normaliser, normaliser, ← sum_coe_sort S]
  have h := ais_unbiased_univ (X := S) (Ω := Ω) hB (fun β x => score β x) L (fun k x y => K k x y)
    (fun k hk x => by
      rw [sum_coe_sort S fun y => K k x y]
      exact (hK k hk).2.1 x x.2)
    (fun k hk y _ => by
      have := hinv k hk y y.2
      rw [← sum_coe_sort S] at this
      exact this) P w
    (fun b path => by rw [hlaw b path, hnorm (score 0)]; rfl) n hn
  rw [hnorm (score 0), hnorm (score _)] at h
  exact h

/-- **C53 (with the offsets of the code).**  When the step `k + 1` keeps `exp (score ((k+1)/L))` up to `ε` of its mass
and changes the score by at most `r`, the expectation of entry `n` differs from `Z_{n+1} / Z_0` by at most
`(n+1) ε exp ((n+1) r)`. -/
theorem ais_nearly_unbiased [DecidableEq X] [Fintype Ω] {B : ℕ} (hB : 0 < B) {S : Finset X} (hS : S.Nonempty)
    (score : ℝ → X → ℝ) (L : ℕ) (K : ℕ → X → X → ℝ) {ε r : ℝ} (hε : 0 ≤ ε) (hK : ∀ k < L, Stochastic S (K k))
    (hr : ∀ k < L, ∀ x ∈ S, |score ((k + 1 : ℕ) / (L : ℝ)) x - score ((k : ℕ) / (L : ℝ)) x| ≤ r)
    (hinv : ∀ k < L, NearlyInvariant S (fun x => Real.exp (score ((k + 1 : ℕ) / (L : ℝ)) x)) (K k) ε)
    (P : Ω → ℝ) (w : Ω → Fin (L + 1) → Fin B → S)
    (hlaw : ∀ b (path : Fin (L + 1) → S), law P (fun ω i => w ω i b) path =
      pathProb (fun x => Real.exp (score 0 x) / normaliser S (score 0)) K L fun i => (path i : X))
    (n : ℕ) (hn : n < L) :
    |∑ ω, P ω * Real.exp ((aisLoop score L (fun k b => (w ω ⟨min k L, by omega⟩ b : X)) L).logZ.getD n 0) -
      normaliser S (score ((n + 1 : ℕ) / (L : ℝ))) / normaliser S (score 0)| ≤
      (n + 1 : ℕ) * ε * Real.exp ((n + 1 : ℕ) * r) := by
  have hnorm : ∀ f : X → ℝ, normaliser (univ : Finset S) (fun x => f x) = normaliser S f := fun f => by
    rw [normaliser, normaliser, ← sum_coe_sort S]
  have h := ais_near_univ (X := S) (Ω := Ω) hB (fun β x => score β x) L (fun k x y => K k x y) hε
    (by rw [hnorm (score 0)]; exact sum_pos (fun _ _ => Real.exp_pos _) hS)
    (fun k hk x y => (hK k hk).1 x x.2 y)
    (fun k hk x => by
      rw [sum_coe_sort S fun y => K k x y]
      exact (hK k hk).2.1 x x.2)
    (fun k hk x => hr k hk x x.2)
    (fun k hk => by
      have := hinv k hk
      unfold NearlyInvariant at this ⊢
      rw [← sum_coe_sort S, ← sum_coe_sort S] at this
      simp only [← sum_coe_sort S (fun x => Real.exp (score ((k + 1 : ℕ) / (L : ℝ)) x) * K k x _)] at this
      exact this) P w
    (fun b path => by rw [hlaw b path, hnorm (score 0)]; rfl) n hn
  rw [hnorm (score 0), hnorm (score _)] at h
  exact h

/-! ### The image model -/

/-- Product Bernoulli probability of a binary image, the law of `init_dist` (`resnet.py:146-152`). -/
def Spec.bernoulliProb {D : ℕ} (m : Fin D → ℝ) (x : Fin D → ℤ) : ℝ :=
  ∏ i, if x i = 1 then m i else 1 - m i

private theorem valid_two {D : ℕ} {x : Fin D → ℤ} (hx : x ∈ validStates 2 D) (i : Fin D) :
    x i = 0 ∨ x i = 1 := by
  have := Fintype.mem_piFinset.1 hx i
  rw [mem_Ico] at this
  have h1 := this.1
  have h2 := this.2
  push_cast at h2
  omega

/-- At temperature 0 the weights are exactly the law of the initial samples. -/
theorem image_base {D : ℕ} (m : Fin D → ℝ) (hm : ∀ i, 0 < m i ∧ m i < 1) (net : (Fin D → ℤ) → ℝ)
    (x : Fin D → ℤ) (hx : x ∈ validStates 2 D) :
    Real.exp (imageForward 0 (some m) net (some 0) x) = bernoulliProb m x := by
  simp only [imageForward, sub_zero, mul_one, mul_zero, add_zero, Real.exp_sum, bernoulliProb]
  refine prod_congr rfl fun i _ => ?_
  rcases valid_two hx i with h | h
  · rw [h]
    simp only [Int.cast_zero, zero_mul, sub_zero, one_mul, zero_add]
    rw [Real.exp_log (by linarith [(hm i).2])]
    norm_num
    ring
  · rw [h]
    simp only [Int.cast_one, one_mul, sub_self, zero_mul, add_zero, if_true]
    rw [Real.exp_log (hm i).1]

theorem bernoulliProb_sum {D : ℕ} (m : Fin D → ℝ) : ∑ x ∈ validStates 2 D, bernoulliProb m x = 1 := by
  have h := Finset.prod_univ_sum (fun _ : Fin D => Finset.Ico (0 : ℤ) (2 : ℕ))
    fun i v => if v = 1 then m i else 1 - m i
  unfold bernoulliProb validStates
  rw [← h]
  refine prod_eq_one fun i _ => ?_
  have : Finset.Ico (0 : ℤ) ((2 : ℕ) : ℤ) = {0, 1} := by decide
  rw [this]
  simp

/-- **C53** for the image model: with exact Bernoulli initial samples the expectation of the exponential of
the last reported `logz_final` is the partition function of the full model. -/
theorem ebm_ais {D : ℕ} [Fintype Ω] {B : ℕ} (hB : 0 < B) (m : Fin D → ℝ) (hm : ∀ i, 0 < m i ∧ m i < 1)
    (net : (Fin D → ℤ) → ℝ) (L : ℕ) (hL : 0 < L) (K : ℕ → (Fin D → ℤ) → (Fin D → ℤ) → ℝ)
    (hK : ∀ k < L, Stochastic (validStates 2 D) (K k))
    (hinv : ∀ k < L, Invariant (validStates 2 D)
      (fun x => Real.exp (imageForward 0 (some m) net (some ((k + 1 : ℕ) / (L : ℝ))) x)) (K k))
    (P : Ω → ℝ) (w : Ω → Fin (L + 1) → Fin B → validStates 2 D)
    (hlaw : ∀ b (path : Fin (L + 1) → validStates 2 D), law P (fun ω i => w ω i b) path =
      pathProb (bernoulliProb m) K L fun i => (path i : Fin D → ℤ)) :
    ∑ ω, P ω * Real.exp ((aisLoop (fun β => imageForward 0 (some m) net (some β)) L
        (fun k b => (w ω ⟨min k L, by omega⟩ b : Fin D → ℤ)) L).logZ.getD (L - 1) 0) =
      ∑ x ∈ validStates 2 D, Real.exp (imageForward 0 (some m) net none x) := by
  have hZ0 : normaliser (validStates 2 D) (imageForward 0 (some m) net (some 0)) = 1 := by
    rw [normaliser, ← bernoulliProb_sum m]
    exact sum_congr rfl fun x hx => image_base m hm net x hx
  have h := ais_unbiased hB (validStates 2 D) (fun β => imageForward 0 (some m) net (some β)) L K hK hinv
    P w (fun b path => by
      rw [hlaw b path, pathProb, pathProb, hZ0, div_one, image_base m hm net _ (path 0).2]) (L - 1)
    (by omega)
  rw [h, hZ0, div_one, show L - 1 + 1 = L from by omega, div_self (by positivity), normaliser]
  refine sum_congr rfl fun x _ => ?_
  simp [imageForward]

/-- Every hypothesis on the kernels is met by the Gibbs sampler of C01 run on the annealed model, whatever
its starting state. -/
theorem gibbs_ais_kernels {D C : ℕ} (hC : 0 < C) (score : ℝ → (Fin D → ℤ) → ℝ) (L : ℕ) (s : GibbsState) :
    (∀ k < L, Stochastic (validStates C D)
      (gibbsKernel (score ((k + 1 : ℕ) / (L : ℝ))) C ((gibbsUpdate C D)^[k] s))) ∧
    ∀ k < L, Invariant (validStates C D) (fun x => Real.exp (score ((k + 1 : ℕ) / (L : ℝ)) x))
      (gibbsKernel (score ((k + 1 : ℕ) / (L : ℝ))) C ((gibbsUpdate C D)^[k] s)) :=
  ⟨fun _ _ => gibbs_stochastic _ hC _, fun _ _ =>
    invariant_of_reversible (gibbs_reversible _ hC _) (gibbs_stochastic _ hC _)⟩

/-- The remaining hypothesis is met too: `Ω` the set of paths of a single chain with its path law. -/
example {D C : ℕ} (hC : 0 < C) (score : ℝ → (Fin D → ℤ) → ℝ) (L : ℕ) (s : GibbsState) (n : ℕ) (hn : n < L) :
    ∑ ω : Fin (L + 1) → validStates C D,
      pathProb (fun x => Real.exp (score 0 x) / normaliser (validStates C D) (score 0))
        (fun k => gibbsKernel (score ((k + 1 : ℕ) / (L : ℝ))) C ((gibbsUpdate C D)^[k] s)) L
        (fun i => (ω i : Fin D → ℤ)) *
      Real.exp ((aisLoop score L (fun k (_ : Fin 1) => (ω ⟨min k L, by omega⟩ : Fin D → ℤ)) L).logZ.getD n 0) =
    normaliser (validStates C D) (score ((n + 1 : ℕ) / (L : ℝ))) / normaliser (validStates C D) (score 0) := by
  have h := ais_unbiased (B := 1) one_pos (validStates C D) score L
    (fun k => gibbsKernel (score ((k + 1 : ℕ) / (L : ℝ))) C ((gibbsUpdate C D)^[k] s))
    (gibbs_ais_kernels hC score L s).1 (gibbs_ais_kernels hC score L s).2
    (fun ω => pathProb (fun x => Real.exp (score 0 x) / normaliser (validStates C D) (score 0))
        (fun k => gibbsKernel (score ((k + 1 : ℕ) / (L : ℝ))) C ((gibbsUpdate C D)^[k] s)) L
        (fun i => (ω i : Fin D → ℤ)))
    (fun (ω : Fin (L + 1) → validStates C D) i (_ : Fin 1) => ω i)
    (fun b path => by simp only [law, Finset.sum_ite_eq', Finset.mem_univ, if_true]) n hn
  exact h

/-- C53 (finding): without `data_mean` the image model ignores the temperature, so every weight stays
`0` and the reported `logz` is `0` whatever the network. -/
theorem ebm_ais_no_mean {D B : ℕ} (net : (Fin D → ℤ) → ℝ) (L : ℕ)
    (xs : ℕ → Fin B → (Fin D → ℤ)) (n : ℕ) :
    (aisLoop (fun β => imageForward 0 none net (some β)) L xs n).logZ = List.replicate n 0 := by
  rw [aisLoop_eq]
  have : ∀ k, logsumexp (fun b : Fin B => logWt (fun β => imageForward 0 none net (some β)) L
      (fun k => xs k b) (k + 1)) - Real.log B = 0 := by
    intro k
    simp [logWt, imageForward, logsumexp]
  simp only [this, List.map_const', List.length_range]

end Discs
