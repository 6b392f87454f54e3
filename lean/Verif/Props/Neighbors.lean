import Verif.Props.Comb
import Verif.Props.Experiment
import Mathlib.InformationTheory.Hamming

/-!
# C41, C47: the neighbours of a sample, and ratios that still run `chain_length` steps
-/

namespace Discs

open Spec

/-! ## C41 -/

variable {N : ℕ}

/-- A 0/1 sample of integers, as stored. -/
def Spec.IsBits {D : ℕ} (x : Fin D → ℤ) : Prop := ∀ i, x i = 0 ∨ x i = 1

theorem combNeighbor_cast (x : Fin (N + 1) → ℤ) (v : Fin (N + 1)) :
    (fun i => (combNeighbor x v i : ℝ)) = flipAt (fun i => (x i : ℝ)) v := by
  funext i
  rw [flipAt_apply]
  unfold combNeighbor
  split_ifs <;> simp

/-- C41. The neighbours the log-ratios belong to are exactly the samples at Hamming distance one. -/
theorem comb_neighbors_iff {x : Fin (N + 1) → ℤ} (hx : IsBits x) {y : Fin (N + 1) → ℤ} (hy : IsBits y) :
    hammingDist x y = 1 ↔ ∃ v, y = combNeighbor x v := by
  unfold hammingDist
  rw [Finset.card_eq_one]
  constructor
  · rintro ⟨v, hv⟩
    refine ⟨v, funext fun i => ?_⟩
    have hi : x i ≠ y i ↔ i = v := by simpa using Finset.ext_iff.1 hv i
    unfold combNeighbor
    split_ifs with h
    · have := hi.2 h
      subst h
      rcases hx i with e | e <;> rcases hy i with e' | e' <;> simp_all
    · exact (not_not.1 fun h' => h (hi.1 h')).symm
  · rintro ⟨v, rfl⟩
    refine ⟨v, Finset.ext fun i => ?_⟩
    by_cases h : i = v
    · subst h
      rcases hx i with e | e <;> simp [combNeighbor, e]
    · simp [combNeighbor, h]

/-- A neighbour is a 0/1 sample, and the sample is its neighbour. -/
theorem combNeighbor_bits {x : Fin (N + 1) → ℤ} (hx : IsBits x) (v : Fin (N + 1)) :
    IsBits (combNeighbor x v) ∧ combNeighbor (combNeighbor x v) v = x := by
  constructor
  · intro i
    unfold combNeighbor
    split_ifs
    · rcases hx v with e | e <;> simp [e]
    · exact hx i
  · funext i
    by_cases h : i = v <;> simp [combNeighbor, h]

/-- C41 for MaxCut, with the neighbours `get_neighbor_fn` returns: the log-ratio handed out for index `v` is the difference
of the log-likelihoods of that neighbour and the sample. -/
theorem maxcut_neighbor_exact (es : List (Edge N)) (hl : Loopless es) (padded : ℕ) (T : ℝ) {x : Fin (N + 1) → ℤ}
    (hx : IsBits x) (v : Fin (N + 1)) :
    let F := fun z : Fin (N + 1) → ℤ => combForward (maxcutObjective (graph2edges es padded)) noPenalty T fun i => (z i : ℝ)
    maxcutLogratio (graph2edges es padded) T (fun i => (x i : ℝ)) v = F (combNeighbor x v) - F x := by
  intro F
  simp only [F, combNeighbor_cast]
  exact (maxcut_logratio_exact es hl padded T (fun i => by rcases hx i with e | e <;> simp [e]) v).2

/-- C41 for MIS without padding edges (partial: see `mis_logratio_wrong` for padded graphs). -/
theorem mis_neighbor_exact_partial (es : List (Edge N)) (hl : Loopless es) {n : ℕ} (hn : EdgesBelow n es) {padded : ℕ}
    (hp : padded ≤ es.length) (coeff T : ℝ) {x : Fin (N + 1) → ℤ} (hx : IsBits x) {v : Fin (N + 1)} (hv : v.val < n) :
    let F := fun z : Fin (N + 1) → ℤ => combForward (misObjective (nodeMask n))
      (misPenalty (graph2edges es padded) (nodeMask n) coeff) T fun i => (z i : ℝ)
    misLogratio (graph2edges es padded) (nodeMask n) coeff T (fun i => (x i : ℝ)) v = F (combNeighbor x v) - F x := by
  intro F
  simp only [F, combNeighbor_cast]
  exact mis_logratio_exact_partial es hl hn hp coeff T (fun i => by rcases hx i with e | e <;> simp [e]) hv

/-- A path of three nodes: the neighbour of `(0, 1, 0)` at node 1 is the empty set. -/
example : combNeighbor (N := 2) ![0, 1, 0] 1 = ![0, 0, 0] ∧ IsBits ![0, 1, 0] := by
  constructor
  · decide
  · intro i; fin_cases i <;> simp

/-! ## C47 -/

/-- `int(x)` rounds towards zero. -/
theorem pyInt_nonneg_iff (x : ℝ) : 0 ≤ pyInt x ↔ -1 < x := by
  unfold pyInt
  split_ifs with h
  · exact ⟨fun _ => by linarith, fun _ => Int.floor_nonneg.2 h⟩
  · rw [← Int.lt_add_one_iff, ← sub_lt_iff_lt_add, Int.lt_ceil]
    push_cast
    constructor <;> intro h' <;> linarith

theorem pyInt_le_iff {x : ℝ} (L : ℕ) : pyInt x ≤ L ↔ x < L + 1 := by
  have hL : (0 : ℝ) ≤ L := Nat.cast_nonneg L
  unfold pyInt
  split_ifs with h
  · rw [← Int.lt_add_one_iff, Int.floor_lt]
    push_cast
    rfl
  · push Not at h
    refine ⟨fun _ => by linarith, fun _ => Int.ceil_le.2 ?_⟩
    push_cast
    linarith

/-- C47: exactly `chain_length` steps happen precisely if `-1 < chain_length · ratio < chain_length + 1`. -/
theorem sampling_steps_ratio {K X S Y Z : Type*} (d : Driver K X S Y Z) (save metrics : Bool) (e : ℤ) (L : ℕ) (ratio : ℝ)
    (cnt : S → ℕ) (hcnt : ∀ k x s, cnt (d.stp k x s).2.1 = cnt s + 1) (k : K) (x : X) (s : S) :
    cnt (samplingChain d save metrics e L ratio k x s).state = cnt s + L ↔ -1 < L * ratio ∧ L * ratio < L + 1 := by
  rw [sampling_steps_iff d save metrics e L ratio cnt hcnt, pyInt_nonneg_iff, pyInt_le_iff]

/-- Four steps with ratio `-1/8` are four steps. -/
example {K X S Y Z : Type*} (d : Driver K X S Y Z) (cnt : S → ℕ) (hcnt : ∀ k x s, cnt (d.stp k x s).2.1 = cnt s + 1) (k : K)
    (x : X) (s : S) : cnt (samplingChain d false false 1 4 (-1 / 8) k x s).state = cnt s + 4 :=
  (sampling_steps_ratio d false false 1 4 (-1 / 8) cnt hcnt k x s).2 (by norm_num)

end Discs
