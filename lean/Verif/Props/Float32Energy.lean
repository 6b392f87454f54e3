import Verif.Props.Float32
import Mathlib.Tactic.IntervalCases

/-!
# Property C107: energies in single precision
-/

namespace Discs

open Finset Spec

variable {D N m : ℕ}

/-! ## Sums over arrays -/

theorem SumF.ofFn_err {rd : ℝ → ℝ} (hrd : IsRound rd) {n : ℕ} {t : Fin n → ℝ} (ht : ∀ i, IsF32 (t i)) {r : ℝ}
    (h : SumF rd (List.ofFn t) r) : |r - ∑ i, t i| ≤ ((1 + 2⁻¹ ^ 24) ^ (n - 1) - 1) * ∑ i, |t i| := by
  have := (SumF.err hrd h fun s hs => by
    obtain ⟨i, rfl⟩ := (List.mem_ofFn' _ _).1 hs
    exact ht i).2
  rwa [List.sum_ofFn, List.length_ofFn, List.map_ofFn, List.sum_ofFn] at this

theorem SumF.ofFn_int {rd : ℝ → ℝ} (hrd : IsRound rd) {n : ℕ} {t : Fin n → ℝ} {z : Fin n → ℤ} (ht : ∀ i, t i = z i)
    (hb : ∑ i, |z i| ≤ 2 ^ 24) {r : ℝ} (h : SumF rd (List.ofFn t) r) : r = ∑ i, t i := by
  have := SumF.int hrd h (List.ofFn z) (by
    rw [List.map_ofFn]
    congr 1
    exact funext ht) (by rwa [List.map_ofFn, List.sum_ofFn])
  rw [this, List.sum_ofFn]
  push_cast
  exact Finset.sum_congr rfl fun i _ => (ht i).symm

theorem SumF.ofFn_01 {rd : ℝ → ℝ} (hrd : IsRound rd) {n : ℕ} (hn : n ≤ 2 ^ 24) {t : Fin n → ℝ}
    (ht : ∀ i, t i = 0 ∨ t i = 1) {r : ℝ} (h : SumF rd (List.ofFn t) r) :
    r = ∑ i, t i ∧ ∃ k : ℕ, k ≤ n ∧ r = k := by
  have hz : ∀ i, ∃ z : ℕ, z ≤ 1 ∧ t i = z := fun i => (ht i).elim (fun e => ⟨0, by omega, by simp [e]⟩)
    fun e => ⟨1, le_rfl, by simp [e]⟩
  choose z hz1 hz2 using hz
  have hsum : ∑ i, z i ≤ n := by
    refine (Finset.sum_le_sum fun i _ => hz1 i).trans ?_
    simp
  have hr := SumF.ofFn_int hrd (z := fun i => (z i : ℤ)) (fun i => by rw [hz2 i]; simp) (by
    have e : ∑ i, |((z i : ℕ) : ℤ)| = ((∑ i, z i : ℕ) : ℤ) := by
      push_cast
      exact Finset.sum_congr rfl fun i _ => abs_of_nonneg (by positivity)
    rw [e]
    exact_mod_cast hsum.trans hn) h
  refine ⟨hr, ∑ i, z i, hsum, ?_⟩
  rw [hr]
  push_cast
  exact Finset.sum_congr rfl fun i _ => hz2 i

/-! ## The Bernoulli model -/

/-- C107 (Bernoulli energy): in whatever order it is computed, the energy of a binary sample is within
`((1 + 2⁻²⁴)^(D-1) - 1) Σ|p|` of the exact one. -/
theorem bernForwardF_err {rd : ℝ → ℝ} (hrd : IsRound rd) {p : Fin D → ℝ} (hp : ∀ j, IsF32 (p j)) {x : Fin D → ℤ}
    (hx : x ∈ validStates 2 D) {r : ℝ} (h : BernForwardF rd p (fun j => x j) r) :
    |r - bernForward p (fun j => x j)| ≤ ((1 + 2⁻¹ ^ 24) ^ (D - 1) - 1) * ∑ j, |p j| := by
  have h01 : ∀ j, x j = 0 ∨ x j = 1 := fun j => by
    have := (mem_validStates.1 hx) j
    omega
  have hex : ∀ j, rd ((x j : ℝ) * p j) = x j * p j := fun j => by
    rcases h01 j with e | e <;> rw [e]
    · simpa using hrd.exact isF32_zero
    · simpa using hrd.exact (hp j)
  have ht : ∀ j, IsF32 ((x j : ℝ) * p j) := fun j => hex j ▸ hrd.f32 _
  unfold BernForwardF at h
  simp only [hex] at h
  refine (SumF.ofFn_err hrd ht h).trans (mul_le_mul_of_nonneg_left (Finset.sum_le_sum fun j _ => ?_) ?_)
  · rcases h01 j with e | e <;> rw [e] <;> simp
  · have : (1 : ℝ) ≤ (1 + 2⁻¹ ^ 24) ^ (D - 1) := one_le_pow₀ (by norm_num)
    linarith

/-! ## Graph energies -/

theorem spinF_eq {rd : ℝ → ℝ} (hrd : IsRound rd) {x : ℝ} (hx : x = 0 ∨ x = 1) : spinF rd x = x * 2 - 1 := by
  unfold spinF
  rcases hx with rfl | rfl
  · rw [zero_mul, hrd.exact isF32_zero]
    have := hrd.int (n := -1) (by norm_num)
    norm_num at this ⊢
    exact this
  · have h2 := hrd.int (n := 2) (by norm_num)
    have h1 := hrd.exact isF32_one
    norm_num at h2 ⊢
    rw [h2]
    norm_num
    exact h1

theorem cutTermF_eq {rd : ℝ → ℝ} (hrd : IsRound rd) {x y w : ℝ} (hx : x = 0 ∨ x = 1) (hy : y = 0 ∨ y = 1) (hw : IsF32 w) :
    rd (rd (rd (1 - rd (spinF rd x * spinF rd y)) / 2) * w) = (1 - (x * 2 - 1) * (y * 2 - 1)) / 2 * w ∧
      ((1 - (x * 2 - 1) * (y * 2 - 1)) / 2 = 0 ∨ (1 - (x * 2 - 1) * (y * 2 - 1)) / 2 = 1) := by
  have h0 := hrd.exact isF32_zero
  have h1 := hrd.exact isF32_one
  have hm := hrd.int (n := -1) (by norm_num)
  have h2 := hrd.int (n := 2) (by norm_num)
  have hw' := hrd.exact hw
  push_cast at hm h2
  rw [spinF_eq hrd hx, spinF_eq hrd hy]
  rcases hx with rfl | rfl <;> rcases hy with rfl | rfl <;> norm_num [h0, h1, hm, h2, hw']

/-- C107 (MaxCut objective): error for single-precision edge weights. -/
theorem maxcutObjectiveF_err {rd : ℝ → ℝ} (hrd : IsRound rd) {A : EdgeArrays N m} (hw : ∀ i, IsF32 (A.edgeWeight i))
    {x : Fin (N + 1) → ℝ} (hx : ∀ v, x v = 0 ∨ x v = 1) {r : ℝ} (h : MaxcutObjectiveF rd A x r) :
    |r - maxcutObjective A x| ≤ ((1 + 2⁻¹ ^ 24) ^ (m - 1) - 1) * ∑ i, |A.edgeWeight i| := by
  unfold MaxcutObjectiveF at h
  simp only [fun i => (cutTermF_eq hrd (hx (A.edgeFrom i)) (hx (A.edgeTo i)) (hw i)).1] at h
  have key := fun i => (cutTermF_eq hrd (hx (A.edgeFrom i)) (hx (A.edgeTo i)) (hw i)).2
  refine (SumF.ofFn_err hrd (fun i => ?_) h).trans (mul_le_mul_of_nonneg_left (Finset.sum_le_sum fun i _ => ?_) ?_)
  · rcases key i with e | e <;> rw [e]
    · simpa using isF32_zero
    · simpa using hw i
  · rcases key i with e | e <;> rw [e] <;> simp
  · have : (1 : ℝ) ≤ (1 + 2⁻¹ ^ 24) ^ (m - 1) := one_le_pow₀ (by norm_num)
    linarith

/-- C107 (MaxCut objective, whole weights): no error at all while the weights add up to at most `2 ^ 24`. -/
theorem maxcutObjectiveF_exact {rd : ℝ → ℝ} (hrd : IsRound rd) {A : EdgeArrays N m} {w : Fin m → ℤ}
    (hw : ∀ i, A.edgeWeight i = w i) (hb : ∑ i, |w i| ≤ 2 ^ 24) {x : Fin (N + 1) → ℝ} (hx : ∀ v, x v = 0 ∨ x v = 1) {r : ℝ}
    (h : MaxcutObjectiveF rd A x r) : r = maxcutObjective A x := by
  have hwb : ∀ i, |w i| ≤ 2 ^ 24 := fun i =>
    (Finset.single_le_sum (f := fun i => |w i|) (fun _ _ => abs_nonneg _) (mem_univ i)).trans hb
  have hwf : ∀ i, IsF32 (A.edgeWeight i) := fun i => hw i ▸ isF32_int (hwb i)
  unfold MaxcutObjectiveF at h
  simp only [fun i => (cutTermF_eq hrd (hx (A.edgeFrom i)) (hx (A.edgeTo i)) (hwf i)).1] at h
  have key := fun i => (cutTermF_eq hrd (hx (A.edgeFrom i)) (hx (A.edgeTo i)) (hwf i)).2
  have hz : ∀ i, ∃ z : ℤ, |z| ≤ |w i| ∧
      (1 - (x (A.edgeFrom i) * 2 - 1) * (x (A.edgeTo i) * 2 - 1)) / 2 * A.edgeWeight i = z := by
    intro i
    rcases key i with e | e <;> rw [e]
    · exact ⟨0, by simp, by simp⟩
    · exact ⟨w i, le_rfl, by rw [hw i, one_mul]⟩
  choose z hz1 hz2 using hz
  exact SumF.ofFn_int hrd hz2 ((Finset.sum_le_sum fun i _ => hz1 i).trans hb) h

/-- The default penalty `0.0` (`comb_ebm.py:23-24`). -/
def NoPenaltyF {X : Type*} (_ : X) (p : ℝ) : Prop := p = 0

/-- C107 (MaxCut energy, whole weights): the computed energy is the exact one rounded once, and the exact one at temperature
`1`. -/
theorem maxcutForwardF {rd : ℝ → ℝ} (hrd : IsRound rd) {A : EdgeArrays N m} {w : Fin m → ℤ}
    (hw : ∀ i, A.edgeWeight i = w i) (hb : ∑ i, |w i| ≤ 2 ^ 24) {T : ℝ} {x : Fin (N + 1) → ℝ} (hx : ∀ v, x v = 0 ∨ x v = 1)
    {r : ℝ} (h : CombForwardF rd (MaxcutObjectiveF rd A) NoPenaltyF T x r) :
    Rounds (combForward (maxcutObjective A) noPenalty T x) r ∧
      (T = 1 → r = combForward (maxcutObjective A) noPenalty T x) := by
  obtain ⟨o, p, ho, hp, rfl⟩ := h
  have hp0 : p = 0 := hp
  have hoe := maxcutObjectiveF_exact hrd hw hb hx ho
  have hof : IsF32 o := by
    refine (SumF.err hrd ho fun t ht => ?_).1
    obtain ⟨i, rfl⟩ := (List.mem_ofFn' _ _).1 ht
    exact hrd.f32 _
  rw [hp0, sub_zero, hrd.exact hof]
  unfold combForward noPenalty
  rw [sub_zero, ← hoe]
  exact ⟨hrd _, fun hT => by rw [hT, div_one, hrd.exact hof]⟩

/-- An objective computed exactly, a penalty rounded once, then the difference and the quotient. -/
theorem three_roundings {rd : ℝ → ℝ} (hrd : IsRound rd) (o v T : ℝ) :
    |rd (rd (o - rd v) / T) - (o - v) / T| ≤ ((1 + 2⁻¹ ^ 24) ^ 3 - 1) * (|o| + |v|) / |T| := by
  rcases eq_or_ne T 0 with rfl | hT
  · simp [hrd.exact isF32_zero]
  have hT' : 0 < |T| := abs_pos.2 hT
  have hu := f32u_pos
  have e1 := hrd.rel v
  have e2 := hrd.rel (o - rd v)
  have e3 := hrd.rel (rd (o - rd v) / T)
  have b1 := hrd.abs_le v
  have b2 : |o - rd v| ≤ |o| + (1 + f32u) * |v| := (abs_sub _ _).trans (by linarith)
  have h0 := abs_nonneg o
  have h0' := abs_nonneg v
  have q0 : 0 ≤ f32u * |o| := by positivity
  have q1 : 0 ≤ f32u * f32u * |o| := by positivity
  have b3 : f32u * |o - rd v| ≤ f32u * (|o| + (1 + f32u) * |v|) := mul_le_mul_of_nonneg_left b2 hu.le
  have c1 : |rd (o - rd v) - (o - v)| ≤ ((1 + f32u) ^ 2 - 1) * (|o| + |v|) := by
    have : rd (o - rd v) - (o - v) = (rd (o - rd v) - (o - rd v)) - (rd v - v) := by ring
    rw [this]
    refine (abs_sub _ _).trans ((add_le_add (e2.trans b3) e1).trans ?_)
    linarith
  have c2 : |rd (o - rd v)| ≤ (1 + f32u) ^ 2 * (|o| + |v|) := by
    have h1 := hrd.abs_le (o - rd v)
    linarith
  have hsplit : rd (rd (o - rd v) / T) - (o - v) / T =
      (rd (rd (o - rd v) / T) - rd (o - rd v) / T) + (rd (o - rd v) - (o - v)) / T := by
    field_simp; ring
  rw [hsplit]
  refine (abs_add_le _ _).trans ?_
  rw [abs_div] at e3 ⊢
  have c3 : f32u * (|rd (o - rd v)| / |T|) ≤ f32u * ((1 + f32u) ^ 2 * (|o| + |v|) / |T|) := by gcongr
  have c4 : |rd (o - rd v) - (o - v)| / |T| ≤ ((1 + f32u) ^ 2 - 1) * (|o| + |v|) / |T| := by gcongr
  refine (add_le_add (e3.trans c3) c4).trans (le_of_eq ?_)
  unfold f32u
  ring

theorem mul01 {x y : ℝ} (hx : x = 0 ∨ x = 1) (hy : y = 0 ∨ y = 1) : x * y = 0 ∨ x * y = 1 := by
  rcases hx with rfl | rfl <;> rcases hy with rfl | rfl <;> simp

theorem rd01 {rd : ℝ → ℝ} (hrd : IsRound rd) {x : ℝ} (hx : x = 0 ∨ x = 1) : rd x = x := by
  rcases hx with rfl | rfl
  · exact hrd.exact isF32_zero
  · exact hrd.exact isF32_one

theorem misObjectiveF_exact {rd : ℝ → ℝ} (hrd : IsRound rd) (hN : N + 1 ≤ 2 ^ 24) {mask x : Fin (N + 1) → ℝ}
    (hm : ∀ v, mask v = 0 ∨ mask v = 1) (hx : ∀ v, x v = 0 ∨ x v = 1) {r : ℝ} (h : MisObjectiveF rd mask x r) :
    r = misObjective mask x ∧ ∃ k : ℕ, k ≤ N + 1 ∧ r = k := by
  have ht := fun v => mul01 (hx v) (hm v)
  unfold MisObjectiveF at h
  simp only [fun v => rd01 hrd (ht v)] at h
  exact SumF.ofFn_01 hrd hN ht h

theorem edgeSumF_exact {rd : ℝ → ℝ} (hrd : IsRound rd) (hmN : m ≤ 2 ^ 24) {A : EdgeArrays N m} {mask x : Fin (N + 1) → ℝ}
    (hm : ∀ v, mask v = 0 ∨ mask v = 1) (he : ∀ i, A.edgeMask i = 0 ∨ A.edgeMask i = 1) (hx : ∀ v, x v = 0 ∨ x v = 1) {r : ℝ}
    (h : EdgeSumF rd A mask x r) :
    r = ∑ i, x (A.edgeFrom i) * mask (A.edgeFrom i) * (x (A.edgeTo i) * mask (A.edgeTo i)) * A.edgeMask i ∧
      ∃ k : ℕ, k ≤ m ∧ r = k := by
  have ht := fun v => mul01 (hx v) (hm v)
  have ht2 := fun i => mul01 (ht (A.edgeFrom i)) (ht (A.edgeTo i))
  have ht3 := fun i => mul01 (ht2 i) (he i)
  unfold EdgeSumF at h
  simp only [fun v => rd01 hrd (ht v), fun i => rd01 hrd (ht2 i), fun i => rd01 hrd (ht3 i)] at h
  exact SumF.ofFn_01 hrd hmN ht3 h

/-- C107 (independent-set energy): the sums are computed exactly; what is left are three roundings. -/
theorem misForwardF {rd : ℝ → ℝ} (hrd : IsRound rd) (hN : N + 1 ≤ 2 ^ 24) (hmN : m ≤ 2 ^ 24) {A : EdgeArrays N m}
    {mask x : Fin (N + 1) → ℝ} (hm : ∀ v, mask v = 0 ∨ mask v = 1) (he : ∀ i, A.edgeMask i = 0 ∨ A.edgeMask i = 1)
    (hx : ∀ v, x v = 0 ∨ x v = 1) {c T r : ℝ}
    (h : CombForwardF rd (MisObjectiveF rd mask) (MisPenaltyF rd A mask c) T x r) :
    |r - combForward (misObjective mask) (misPenalty A mask c) T x| ≤
      ((1 + 2⁻¹ ^ 24) ^ 3 - 1) * (|misObjective mask x| + |misPenalty A mask c x|) / |T| := by
  obtain ⟨o, p, ho, ⟨v, hv, rfl⟩, rfl⟩ := h
  obtain ⟨rfl, -⟩ := misObjectiveF_exact hrd hN hm hx ho
  obtain ⟨rfl, -⟩ := edgeSumF_exact hrd hmN hm he hx hv
  exact three_roundings hrd _ _ _

/-- C107 (independent-set energy, whole penalty): no error at all at temperature `1`. -/
theorem misForwardF_exact {rd : ℝ → ℝ} (hrd : IsRound rd) {A : EdgeArrays N m} {c : ℕ} (hc : N + 1 + c * m ≤ 2 ^ 24)
    (hc0 : 0 < c) {mask x : Fin (N + 1) → ℝ} (hm : ∀ v, mask v = 0 ∨ mask v = 1)
    (he : ∀ i, A.edgeMask i = 0 ∨ A.edgeMask i = 1) (hx : ∀ v, x v = 0 ∨ x v = 1) {r : ℝ}
    (h : CombForwardF rd (MisObjectiveF rd mask) (MisPenaltyF rd A mask c) 1 x r) :
    r = combForward (misObjective mask) (misPenalty A mask c) 1 x := by
  have hmle : m ≤ c * m := Nat.le_mul_of_pos_left m hc0
  obtain ⟨o, p, ho, ⟨v, hv, rfl⟩, rfl⟩ := h
  obtain ⟨rfl, k, hk, hk'⟩ := misObjectiveF_exact hrd (by omega) hm hx ho
  obtain ⟨rfl, l, hl, hl'⟩ := edgeSumF_exact hrd (by omega) hm he hx hv
  have hcl : c * l ≤ c * m := Nat.mul_le_mul_left c hl
  unfold combForward misPenalty
  simp only
  rw [hk', hl', div_one, div_one]
  rw [show (c : ℝ) * (l : ℝ) = ((c * l : ℕ) : ℝ) by push_cast; ring, hrd.nat (by omega),
    show ((k : ℝ) - ((c * l : ℕ) : ℝ)) = (((k : ℤ) - ((c * l : ℕ) : ℤ) : ℤ) : ℝ) by push_cast; ring]
  have hb : |(k : ℤ) - ((c * l : ℕ) : ℤ)| ≤ 2 ^ 24 := by
    rw [abs_le]
    constructor <;> omega
  rw [hrd.int hb, hrd.int hb]

/-- C107 (clique energy): with at most `4096` nodes the sums are computed exactly; what is left are three roundings. -/
theorem cliqueForwardF {rd : ℝ → ℝ} (hrd : IsRound rd) (hN : N + 1 ≤ 2 ^ 12) (hmN : m ≤ 2 ^ 23) {A : EdgeArrays N m}
    {mask x : Fin (N + 1) → ℝ} (hm : ∀ v, mask v = 0 ∨ mask v = 1) (he : ∀ i, A.edgeMask i = 0 ∨ A.edgeMask i = 1)
    (hx : ∀ v, x v = 0 ∨ x v = 1) {c T r : ℝ}
    (h : CombForwardF rd (MisObjectiveF rd mask) (CliquePenaltyF rd A mask c) T x r) :
    |r - combForward (misObjective mask) (cliquePenalty A mask c) T x| ≤
      ((1 + 2⁻¹ ^ 24) ^ 3 - 1) * (|misObjective mask x| + |cliquePenalty A mask c x|) / |T| := by
  obtain ⟨o, p, ho, ⟨s, v, hs, hv, rfl⟩, rfl⟩ := h
  obtain ⟨rfl, -⟩ := misObjectiveF_exact hrd (hN.trans (by norm_num)) hm hx ho
  obtain ⟨hse, k, hk, hk'⟩ := misObjectiveF_exact hrd (hN.trans (by norm_num)) hm hx hs
  obtain ⟨hve, l, hl, hl'⟩ := edgeSumF_exact hrd (hmN.trans (by norm_num)) hm he hx hv
  have hhalf : ∀ z : ℤ, |z| ≤ 2 ^ 24 → IsF32 ((z : ℝ) / 2) := fun z hz => ⟨z, -1, hz, by norm_num; ring⟩
  have hk2 : |(k : ℤ) * ((k : ℤ) - 1)| ≤ 2 ^ 24 := by
    have h1 : (k : ℤ) ≤ 2 ^ 12 := by exact_mod_cast hk.trans hN
    have h2 : (0 : ℤ) ≤ k := by positivity
    rw [abs_le]
    constructor <;> nlinarith
  have hk3 : |(k : ℤ) * ((k : ℤ) - 1) - 2 * l| ≤ 2 ^ 24 := by
    have h1 : (k : ℤ) ≤ 2 ^ 12 := by exact_mod_cast hk.trans hN
    have h2 : (0 : ℤ) ≤ k := by positivity
    have h3 : (l : ℤ) ≤ 2 ^ 23 := by exact_mod_cast hl.trans hmN
    have h4 : (0 : ℤ) ≤ l := by positivity
    have h5 : 0 ≤ (k : ℤ) * ((k : ℤ) - 1) := by
      rcases Nat.eq_zero_or_pos k with e | e
      · simp [e]
      · have : (1 : ℤ) ≤ k := by exact_mod_cast e
        exact mul_nonneg h2 (by linarith)
    rw [abs_le]
    constructor <;> nlinarith
  have r1 : rd (s - 1) = s - 1 := by
    have := hrd.int (n := (k : ℤ) - 1) (by rw [abs_le]; constructor <;> omega)
    push_cast at this
    rwa [hk']
  have r2 : rd (s * (s - 1)) = s * (s - 1) := by
    have := hrd.int hk2
    push_cast at this
    rwa [hk']
  have r3 : rd (s * (s - 1) / 2) = s * (s - 1) / 2 := by
    have := hrd.exact (hhalf _ hk2)
    push_cast at this
    rwa [hk']
  have r4 : rd (s * (s - 1) / 2 - v) = s * (s - 1) / 2 - v := by
    have := hrd.exact (hhalf _ hk3)
    push_cast at this
    rw [hk', hl', show (k : ℝ) * ((k : ℝ) - 1) / 2 - l = ((k : ℝ) * ((k : ℝ) - 1) - 2 * l) / 2 by ring]
    exact this
  rw [r1, r2, r3, r4, hse, hve]
  exact three_roundings hrd _ _ _

end Discs
