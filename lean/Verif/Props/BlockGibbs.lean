import Verif.Model.BlockGibbs
import Verif.Lemmas.Gibbs
import Mathlib.Data.List.FinRange
import Mathlib.Data.Fintype.Pi
import Mathlib.Data.Nat.GCD.BigOperators

/-!
# Properties C06, C07, C08: block Gibbs
-/

namespace Discs

open Finset Spec

variable {D : ℕ}

/-! ## C07: the table of assignments -/

theorem mem_productRepeat {C b : ℕ} (v : Fin b → ℕ) : v ∈ productRepeat C b ↔ ∀ i, v i < C := by
  induction b with
  | zero =>
    simp only [productRepeat, List.mem_singleton]
    exact ⟨fun _ i => i.elim0, fun _ => funext fun i => i.elim0⟩
  | succ b ih =>
    simp only [productRepeat, List.mem_flatMap, List.mem_range, List.mem_map]
    constructor
    · rintro ⟨a, ha, t, ht, rfl⟩ i
      refine Fin.cases ha (fun i => ?_) i
      exact (ih t).1 ht i
    · intro h
      refine ⟨v 0, h 0, Fin.tail v, (ih _).2 fun i => h i.succ, Fin.cons_self_tail v⟩

theorem nodup_productRepeat (C b : ℕ) : (productRepeat C b).Nodup := by
  induction b with
  | zero => simp [productRepeat]
  | succ b ih =>
    rw [productRepeat, List.nodup_flatMap]
    refine ⟨fun v _ => ih.map fun s t h => ?_, ?_⟩
    · funext i; simpa using congrFun h i.succ
    · refine List.nodup_range.pairwise_of_forall_ne fun a _ c _ hac => ?_
      intro w h1 h2
      simp only [List.mem_map] at h1 h2
      obtain ⟨s, _, rfl⟩ := h1
      obtain ⟨t, _, h⟩ := h2
      exact hac (by simpa using (congrFun h 0).symm)

theorem length_productRepeat (C b : ℕ) : (productRepeat C b).length = C ^ b := by
  induction b with
  | zero => simp [productRepeat]
  | succ b ih => simp [productRepeat, List.length_flatMap, ih, pow_succ, mul_comm]

/-- C07: the table contains an assignment iff all its values are categories. -/
theorem mem_categoriesIter {C b : ℕ} (v : Fin b → ℕ) : v ∈ categoriesIter C b ↔ ∀ i, v i < C := by
  unfold categoriesIter
  split_ifs with h
  · exact mem_productRepeat v
  · have hb : b = 1 := by simpa using h
    subst hb
    simp only [List.mem_map, List.mem_range]
    constructor
    · rintro ⟨a, ha, rfl⟩ _; exact ha
    · intro hv; exact ⟨v 0, hv 0, funext fun i => by rw [Subsingleton.elim i 0]⟩

/-- C07: no assignment occurs twice. -/
theorem nodup_categoriesIter (C b : ℕ) : (categoriesIter C b).Nodup := by
  unfold categoriesIter
  split_ifs with h
  · exact nodup_productRepeat C b
  · have hb : b = 1 := by simpa using h
    subst hb
    exact List.nodup_range.map fun a c h => congrFun h 0

/-- C07: the number of evaluations per step is the number the sampler adds to `num_ll_calls`. -/
theorem categoriesIter_count (C D b : ℕ) (s : BlockState) :
    (blockGibbsUpdate C D b s).numLlCalls = s.numLlCalls + (categoriesIter C b).length := by
  have : (categoriesIter C b).length = C ^ b := by
    unfold categoriesIter
    split_ifs with h
    · exact length_productRepeat C b
    · have hb : b = 1 := by simpa using h
      subst hb; simp
  rw [this]; rfl

/-- Instance for C07. -/
example : categoriesIter 3 2 =
    [![0,0], ![0,1], ![0,2], ![1,0], ![1,1], ![1,2], ![2,0], ![2,1], ![2,2]] := by decide

/-! ## C06: reversibility -/

theorem sum_get_categoriesIter (C b : ℕ) (g : (Fin b → ℕ) → ℝ) :
    ∑ i, g ((categoriesIter C b).get i) =
      ∑ v ∈ Fintype.piFinset (fun _ : Fin b => Finset.range C), g v := by
  have h1 : ∑ i, g ((categoriesIter C b).get i) = ((categoriesIter C b).map g).sum := by
    rw [← List.sum_ofFn]
    congr 1
    conv_rhs => rw [← List.ofFn_get (categoriesIter C b), List.map_ofFn]
    rfl
  rw [h1, ← List.sum_toFinset g (nodup_categoriesIter C b)]
  refine Finset.sum_congr ?_ fun _ _ => rfl
  ext v
  simp [mem_categoriesIter]

theorem setBlock_setBlock {b : ℕ} (x : Fin D → ℤ) (start : ℕ) (v w : Fin b → ℕ) :
    setBlock (setBlock x start v) start w = setBlock x start w := by
  funext j
  unfold setBlock
  split_ifs <;> rfl

theorem setBlock_valid {C b : ℕ} {x : Fin D → ℤ} (hx : x ∈ validStates C D) (start : ℕ)
    {v : Fin b → ℕ} (hv : ∀ i, v i < C) : setBlock x start v ∈ validStates C D := by
  rw [mem_validStates] at *
  intro j
  unfold setBlock
  split_ifs with h
  · exact ⟨by positivity, by exact_mod_cast hv _⟩
  · exact hx j

/-- C06: coordinates outside the block keep their value; inside, the value is one of the table. -/
theorem blockGibbs_touches {B C b : ℕ} (x : Fin B → Fin D → ℤ)
    (sel : Fin B → Fin (categoriesIter C b).length) (s : BlockState) (r : Fin B) (j : Fin D) :
    (¬ (s.index ≤ (j : ℕ) ∧ (j : ℕ) < s.index + b) → (blockGibbsStep C b x sel s).1 r j = x r j) ∧
    ((s.index ≤ (j : ℕ) ∧ (j : ℕ) < s.index + b) →
      0 ≤ (blockGibbsStep C b x sel s).1 r j ∧ (blockGibbsStep C b x sel s).1 r j < C) := by
  simp only [blockGibbsStep, setBlock]
  constructor
  · intro h
    rw [dif_neg]
    rintro ⟨h1, h2⟩; exact h ⟨h1, by omega⟩
  · rintro ⟨h1, h2⟩
    rw [dif_pos ⟨h1, by omega⟩]
    have := (mem_categoriesIter _).1 (List.get_mem (categoriesIter C b) (sel r))
    exact ⟨by positivity, by exact_mod_cast this _⟩

theorem setBlock_eq_self_iff {C b : ℕ} {x : Fin D → ℤ} (hx : x ∈ validStates C D) (start : ℕ)
    (v : Fin b → ℕ) : (v ∈ Fintype.piFinset (fun _ : Fin b => Finset.range C) ∧ setBlock x start v = x) ↔
      v ∈ Fintype.piFinset (fun i : Fin b => if h : start + (i : ℕ) < D
        then {(x ⟨start + i, h⟩).toNat} else Finset.range C) := by
  rw [mem_validStates] at hx
  simp only [Fintype.mem_piFinset, Finset.mem_range]
  constructor
  · rintro ⟨h1, h2⟩ i
    split_ifs with h
    · rw [Finset.mem_singleton]
      have := congrFun h2 ⟨start + i, h⟩
      unfold setBlock at this
      rw [dif_pos ⟨by simp, by simp⟩] at this
      rw [← this]
      simp
    · exact Finset.mem_range.2 (h1 i)
  · intro h
    have hv : ∀ (i : Fin b) (hi : start + (i : ℕ) < D), v i = (x ⟨start + i, hi⟩).toNat := by
      intro i hi
      have := h i
      rw [dif_pos hi, Finset.mem_singleton] at this
      exact this
    refine ⟨fun i => ?_, funext fun j => ?_⟩
    · by_cases hi : start + (i : ℕ) < D
      · rw [hv i hi]
        have := hx ⟨start + i, hi⟩
        omega
      · have := h i
        rw [dif_neg hi, Finset.mem_range] at this
        exact this
    · unfold setBlock
      split_ifs with hj
      · have e : start + ((j : ℕ) - start) = j := by omega
        rw [hv ⟨(j : ℕ) - start, hj.2⟩ (by simp only [e]; exact j.2)]
        simp only [e, Fin.eta]
        exact Int.toNat_of_nonneg (hx j).1
      · rfl

/-- C06 (kernel): the block Gibbs step is a probability kernel on valid samples. -/
theorem blockGibbs_stochastic (f : (Fin D → ℤ) → ℝ) {C b : ℕ} (hC : 0 < C) (s : BlockState) :
    Stochastic (validStates C D) (blockGibbsKernel f C b s) := by
  have : Nonempty (Fin (categoriesIter C b).length) := by
    have : (fun _ => 0 : Fin b → ℕ) ∈ categoriesIter C b := (mem_categoriesIter _).2 fun _ => hC
    exact ⟨⟨0, List.length_pos_of_mem this⟩⟩
  refine stochastic_law (fun x _ => isProb_softmax _) fun x hx k => ?_
  exact setBlock_valid hx _ ((mem_categoriesIter _).1 (List.get_mem (categoriesIter C b) k))

/-- C06 (detailed balance): for every block start — also one whose block runs past the last
coordinate — the step is reversible with respect to `exp ∘ forward`. -/
theorem blockGibbs_reversible (f : (Fin D → ℤ) → ℝ) (C b : ℕ) (s : BlockState) :
    Reversible (validStates C D) (fun x => Real.exp (f x)) (blockGibbsKernel f C b s) := by
  have key := reversible_of_fiber (S := validStates C D) (w := fun x => Real.exp (f x))
    (fun x (k : Fin (categoriesIter C b).length) =>
      setBlock x s.index ((categoriesIter C b).get k)) ?_ ?_
  · exact key
  · intro x hx k₀ _ F
    simp only [setBlock_setBlock]
  · intro x hx k₀ h₀
    have hcount : ∀ z ∈ validStates C D, (∑ k : Fin (categoriesIter C b).length,
        if setBlock z s.index ((categoriesIter C b).get k) = z then (1 : ℝ) else 0) =
        ∏ i : Fin b, if s.index + (i : ℕ) < D then (1 : ℝ) else C := by
      intro z hz
      rw [sum_get_categoriesIter C b (fun v => if setBlock z s.index v = z then (1 : ℝ) else 0),
        ← Finset.sum_filter]
      have : (Fintype.piFinset (fun _ : Fin b => Finset.range C)).filter
          (fun v => setBlock z s.index v = z) =
          Fintype.piFinset (fun i : Fin b => if h : s.index + (i : ℕ) < D
            then {(z ⟨s.index + i, h⟩).toNat} else Finset.range C) := by
        ext v; rw [Finset.mem_filter]; exact setBlock_eq_self_iff hz s.index v
      rw [this, Finset.sum_const, Fintype.card_piFinset, nsmul_eq_mul, mul_one, Nat.cast_prod]
      refine Finset.prod_congr rfl fun i _ => ?_
      split_ifs <;> simp
    rw [hcount x hx, hcount _ h₀]

/-- C06 (invariance along a run). -/
theorem blockGibbs_invariant_run (f : (Fin D → ℤ) → ℝ) {C b : ℕ} (hC : 0 < C) (s : BlockState)
    (n : ℕ) :
    Invariant (validStates C D) (fun x => Real.exp (f x)) (iterate (validStates C D)
      (fun t => blockGibbsKernel f C b ((blockGibbsUpdate C D b)^[t] s)) n) :=
  invariant_iterate (fun _ => invariant_of_reversible (blockGibbs_reversible f C b _)
    (blockGibbs_stochastic f hC _)) n

/-- Instance for C06: a block of three starting at the last of three sites: two of its positions are
out of range, the third is overwritten. -/
example : setBlock (![1, 0, 1] : Fin 3 → ℤ) 2 ![0, 1, 1] = ![1, 0, 0] ∧
    (![1, 0, 1] : Fin 3 → ℤ) ∈ validStates 2 3 := by
  refine ⟨by decide, ?_⟩
  rw [mem_validStates]; decide

/-! ## C08: the moving block -/

/-- State after `t` steps from the initial state. -/
theorem blockGibbs_state_iterate (C b t : ℕ) :
    (blockGibbsUpdate C D b)^[t] blockInit = ⟨t, t * C ^ b, t * b % D⟩ := by
  induction t with
  | zero => simp [blockInit]
  | succ t ih =>
    rw [Function.iterate_succ_apply', ih]
    simp only [blockGibbsUpdate, BlockState.mk.injEq, true_and]
    exact ⟨by ring, by rw [Nat.mod_add_mod]; ring_nf⟩

/-- Coordinate `i` lies in the block of a step starting at `index`. -/
def covers (index b i : ℕ) : Prop := index ≤ i ∧ i < index + b

/-- C08 (first pass): every coordinate is covered within the first `⌈dim / block_size⌉` steps. -/
theorem block_covers_first {b : ℕ} (hb : 0 < b) (i : Fin D) :
    ∃ t < (D + b - 1) / b, covers (t * b % D) b i := by
  have hi := i.2
  have h1 : (i : ℕ) / b * b ≤ i := Nat.div_mul_le_self _ _
  have h2 : (i : ℕ) < (i : ℕ) / b * b + b := by
    have := Nat.div_add_mod (i : ℕ) b
    have := Nat.mod_lt (i : ℕ) hb
    rw [mul_comm b] at *
    omega
  refine ⟨i / b, ?_, ?_⟩
  · rw [← Nat.succ_le_iff, Nat.le_div_iff_mul_le hb, Nat.succ_mul]; omega
  · rw [Nat.mod_eq_of_lt (by omega)]
    exact ⟨h1, h2⟩

/-- C08 (recurrence): every window of `dim / gcd(dim, block_size)` consecutive steps covers every
coordinate. -/
theorem block_covers_window {b : ℕ} (hb : 0 < b) (i : Fin D) (t₀ : ℕ) :
    ∃ t, t₀ ≤ t ∧ t < t₀ + D / Nat.gcd D b ∧ covers (t * b % D) b i := by
  obtain ⟨t₁, _, hc⟩ := block_covers_first hb i
  set P := D / Nat.gcd D b with hP
  have hD : 0 < D := i.pos
  have hg : 0 < Nat.gcd D b := Nat.gcd_pos_of_pos_left _ hD
  have hPpos : 0 < P := Nat.div_pos (Nat.le_of_dvd hD (Nat.gcd_dvd_left D b)) hg
  have hPb : D ∣ P * b := by
    obtain ⟨c, hc⟩ := Nat.gcd_dvd_right D b
    refine ⟨c, ?_⟩
    have : P * Nat.gcd D b = D := Nat.div_mul_cancel (Nat.gcd_dvd_left D b)
    calc P * b = P * (Nat.gcd D b * c) := by rw [← hc]
      _ = D * c := by rw [← mul_assoc, this]
  -- the representative of `t₁` modulo `P` in the window
  obtain ⟨t, h1, h2, h3⟩ : ∃ t, t₀ ≤ t ∧ t < t₀ + P ∧ t % P = t₁ % P := by
    refine ⟨t₀ + (t₁ + P * t₀ - t₀) % P, by omega, ?_, ?_⟩
    · have := Nat.mod_lt (t₁ + P * t₀ - t₀) hPpos; omega
    · have hge : t₀ ≤ P * t₀ := Nat.le_mul_of_pos_left _ hPpos
      rw [Nat.add_mod_mod]
      have : t₀ + (t₁ + P * t₀ - t₀) = t₁ + P * t₀ := by omega
      rw [this, Nat.add_mul_mod_self_left]
  refine ⟨t, h1, h2, ?_⟩
  have hmod : t * b % D = t₁ * b % D := by
    have e : ∀ s : ℕ, s * b % D = (s % P) * b % D := by
      intro s
      conv_lhs => rw [← Nat.div_add_mod s P, add_mul, mul_comm P, mul_assoc]
      obtain ⟨c, hc⟩ := hPb
      rw [hc, ← mul_assoc, mul_comm (s / P), mul_assoc, Nat.mul_add_mod]
    rw [e t, h3, ← e t₁]
  rw [hmod]; exact hc

/-- C08 (exact sweep): if `block_size` divides `dim`, every window of `dim / block_size` consecutive
steps covers every coordinate exactly once. -/
theorem block_covers_unique {b : ℕ} (hb : 0 < b) (hdvd : b ∣ D) (i : Fin D) (t₀ : ℕ) :
    ∃! t, t₀ ≤ t ∧ t < t₀ + D / b ∧ covers (t * b % D) b i := by
  have hg : Nat.gcd D b = b := Nat.gcd_eq_right hdvd
  obtain ⟨t, h1, h2, h3⟩ := block_covers_window hb i t₀
  rw [hg] at h2
  refine ⟨t, ⟨h1, h2, h3⟩, ?_⟩
  rintro t' ⟨h1', h2', h3'⟩
  obtain ⟨m, rfl⟩ := hdvd
  have hm : 0 < m := Nat.pos_of_ne_zero fun h => by subst h; simp at i; exact i.elim0
  rw [Nat.mul_div_cancel_left _ hb] at h2 h2'
  have e : ∀ s : ℕ, s * b % (b * m) = b * (s % m) := by
    intro s; rw [mul_comm s, Nat.mul_mod_mul_left]
  unfold covers at h3 h3'
  rw [e] at h3 h3'
  have hmod : t % m = t' % m := by
    have a1 : b * (t % m) < b * (t' % m) + b := by omega
    have a2 : b * (t' % m) < b * (t % m) + b := by omega
    rw [← Nat.mul_succ] at a1 a2
    have b1 := Nat.lt_of_mul_lt_mul_left a1
    have b2 := Nat.lt_of_mul_lt_mul_left a2
    omega
  have d1 := Nat.div_add_mod t m
  have d2 := Nat.div_add_mod t' m
  have a1 : m * (t / m) < m * (t' / m) + m := by omega
  have a2 : m * (t' / m) < m * (t / m) + m := by omega
  rw [← Nat.mul_succ] at a1 a2
  have b1 := Nat.lt_of_mul_lt_mul_left a1
  have b2 := Nat.lt_of_mul_lt_mul_left a2
  have : t / m = t' / m := by omega
  rw [this] at d1; omega

/-- C08 (link to the sampler): the block of step `t` starts at `t * block_size mod dim`. -/
theorem block_start (C b t : ℕ) :
    ((blockGibbsUpdate C D b)^[t] blockInit).index = t * b % D := by
  rw [blockGibbs_state_iterate]

/-- Instance for C08: dimension 5, block size 2: starts 0, 2, 4, 1, 3, 0, … -/
example : (List.range 6).map (fun t => ((blockGibbsUpdate 2 5 2)^[t] blockInit).index) =
    [0, 2, 4, 1, 3, 0] := by decide

/-- C08 (block Gibbs), in terms of the sampler's own state: covered within the first
`⌈dim / block_size⌉` steps, in every window of `dim / gcd(dim, block_size)` steps, and exactly once per
`dim / block_size` steps when `block_size` divides `dim`. -/
theorem blockGibbs_schedule (C : ℕ) {b : ℕ} (hb : 0 < b) (i : Fin D) (t₀ : ℕ) :
    (∃ t < (D + b - 1) / b, covers ((blockGibbsUpdate C D b)^[t] blockInit).index b i) ∧
    (∃ t, t₀ ≤ t ∧ t < t₀ + D / Nat.gcd D b ∧
      covers ((blockGibbsUpdate C D b)^[t] blockInit).index b i) ∧
    (b ∣ D → ∃! t, t₀ ≤ t ∧ t < t₀ + D / b ∧
      covers ((blockGibbsUpdate C D b)^[t] blockInit).index b i) := by
  simp only [blockGibbs_state_iterate]
  exact ⟨block_covers_first hb i, block_covers_window hb i t₀, fun h => block_covers_unique hb h i t₀⟩

end Discs
