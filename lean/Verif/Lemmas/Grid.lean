import Verif.Spec.Grid
import Verif.Lemmas.MH
import Verif.Lemmas.SiteMH
import Mathlib.Algebra.Order.Floor.Semiring
import Mathlib.Tactic.FieldSimp

/-! # Helper lemmas: acceptance with noise of finite precision -/

namespace Discs.Spec

open Finset MeasureTheory

/-- Probability of acceptance with noise `0, 1/M, …, (M-1)/M`. -/
noncomputable def acceptGrid (M : ℕ) (tiny lp : ℝ) : ℝ := (min M ⌈(M : ℝ) * (Real.exp lp - tiny)⌉₊ : ℕ) / (M : ℝ)

theorem acceptGrid_nonneg (M : ℕ) (tiny lp : ℝ) : 0 ≤ acceptGrid M tiny lp := by unfold acceptGrid; positivity

theorem acceptGrid_le_one (M : ℕ) (tiny lp : ℝ) : acceptGrid M tiny lp ≤ 1 := by
  unfold acceptGrid
  refine div_le_one_of_le₀ ?_ (by positivity)
  exact_mod_cast min_le_left _ _

open Classical in
/-- The noise values on which the acceptance test succeeds, counted. -/
theorem card_accept {M : ℕ} (hM : 0 < M) {tiny : ℝ} (h0 : 0 < tiny) (lp : ℝ) :
    (((range M).filter fun k : ℕ => bernoulliLogp tiny ((k : ℝ) / M) lp).card : ℝ) / M = acceptGrid M tiny lp := by
  have hM' : (0 : ℝ) < M := by exact_mod_cast hM
  have : ((range M).filter fun k : ℕ => bernoulliLogp tiny ((k : ℝ) / M) lp) = range (min M ⌈(M : ℝ) * (Real.exp lp - tiny)⌉₊) := by
    ext k
    rw [mem_filter, mem_range, mem_range, lt_min_iff, Nat.lt_ceil]
    refine and_congr_right fun _ => ?_
    unfold bernoulliLogp
    rw [Real.log_lt_iff_lt_exp (by positivity), ← lt_sub_iff_add_lt, div_lt_iff₀ hM', mul_comm]
  rw [this, card_range]
  rfl

/-- Finite precision adds at most one noise value to the accepted ones. -/
theorem acceptGrid_close {M : ℕ} (hM : 0 < M) (tiny lp : ℝ) :
    acceptProb tiny lp ≤ acceptGrid M tiny lp ∧ acceptGrid M tiny lp ≤ acceptProb tiny lp + 1 / M := by
  have hM' : (0 : ℝ) < M := by exact_mod_cast hM
  unfold acceptGrid acceptProb
  set e := Real.exp lp - tiny with he
  have hcast : ((min M ⌈(M : ℝ) * e⌉₊ : ℕ) : ℝ) = min (M : ℝ) (⌈(M : ℝ) * e⌉₊ : ℝ) := by push_cast; rfl
  rw [hcast]
  constructor
  · rw [le_div_iff₀ hM']
    refine le_min ?_ ?_
    · have : max 0 (min 1 e) ≤ 1 := max_le zero_le_one (min_le_left _ _)
      nlinarith
    · have h1 : max 0 (min 1 e) ≤ max 0 e := max_le_max le_rfl (min_le_right _ _)
      have h2 := Nat.le_ceil ((M : ℝ) * e)
      rcases le_total e 0 with h | h
      · have : max 0 (min 1 e) = 0 := max_eq_left ((min_le_right _ _).trans h)
        rw [this, zero_mul]; positivity
      · rw [max_eq_right h] at h1
        nlinarith
  · rw [div_le_iff₀ hM', add_mul, one_div, inv_mul_cancel₀ hM'.ne']
    rcases le_total e 0 with h | h
    · have h1 : ⌈(M : ℝ) * e⌉₊ = 0 := Nat.ceil_eq_zero.2 (mul_nonpos_of_nonneg_of_nonpos hM'.le h)
      rw [h1]
      have : 0 ≤ max 0 (min 1 e) := le_max_left _ _
      have h3 : min (M : ℝ) ((0 : ℕ) : ℝ) ≤ 0 := by simp
      nlinarith
    · rcases le_total 1 e with h1 | h1
      · rw [min_eq_left h1, max_eq_right zero_le_one]
        linarith [min_le_left (M : ℝ) (⌈(M : ℝ) * e⌉₊ : ℝ)]
      · rw [min_eq_right h1, max_eq_right h]
        have := Nat.ceil_lt_add_one (mul_nonneg hM'.le h)
        linarith [min_le_right (M : ℝ) (⌈(M : ℝ) * e⌉₊ : ℝ)]

theorem acceptGrid_zero {M : ℕ} {tiny lp : ℝ} (h : acceptProb tiny lp = 0) : acceptGrid M tiny lp = 0 := by
  have h1 : Real.exp lp - tiny ≤ 0 := by
    by_contra hc
    push Not at hc
    have : 0 < acceptProb tiny lp := lt_max_of_lt_right (lt_min one_pos hc)
    linarith
  unfold acceptGrid
  rw [Nat.ceil_eq_zero.2 (mul_nonpos_of_nonneg_of_nonpos (Nat.cast_nonneg M) h1)]
  simp

theorem acceptGrid_one {M : ℕ} (hM : 0 < M) {tiny lp : ℝ} (h : acceptProb tiny lp = 1) : acceptGrid M tiny lp = 1 :=
  le_antisymm (acceptGrid_le_one _ _ _) (h ▸ (acceptGrid_close hM tiny lp).1)

variable {X Y Ω : Type*}

/-- `f` has one value when the acceptance test succeeds and one when it fails. -/
def Threshold (tiny : ℝ) (f : ℝ → Y) : Prop :=
  ∃ l y1 y0, ∀ u, (bernoulliLogp tiny u l → f u = y1) ∧ (¬ bernoulliLogp tiny u l → f u = y0)

theorem threshold_const (tiny : ℝ) (y : Y) : Threshold tiny fun _ => y := ⟨0, y, y, fun _ => ⟨fun _ => rfl, fun _ => rfl⟩⟩

theorem threshold_mhStep (tiny : ℝ) (l : Fin 1 → ℝ) (x y : Fin 1 → X) (F : (Fin 1 → X) → Y) :
    Threshold tiny fun u => F (mhStep tiny (fun _ => u) l x y).1 := by
  refine ⟨l 0, F y, F x, fun u => ⟨fun h => ?_, fun h => ?_⟩⟩
  · refine congrArg F ?_
    funext b
    rw [mhStep_accept]
    rwa [Subsingleton.elim b 0]
  · refine congrArg F ?_
    funext b
    rw [mhStep_reject]
    rwa [Subsingleton.elim b 0]

open Classical in
/-- Law of a step that uses the noise of finite precision in the acceptance test only. -/
theorem lawG_mh [Fintype Ω] {M : ℕ} (hM : 0 < M) {tiny : ℝ} (h0 : 0 < tiny) (p : Ω → ℝ) {f : Ω → ℝ → Y} {l : Ω → ℝ}
    {y1 y0 : Ω → Y} (h : ∀ ω u, (bernoulliLogp tiny u (l ω) → f ω u = y1 ω) ∧ (¬ bernoulliLogp tiny u (l ω) → f ω u = y0 ω))
    (y : Y) : lawG M p f y = ∑ ω, p ω * ((if y1 ω = y then acceptGrid M tiny (l ω) else 0) +
        (if y0 ω = y then 1 - acceptGrid M tiny (l ω) else 0)) := by
  have hM' : (M : ℝ) ≠ 0 := by exact_mod_cast hM.ne'
  unfold lawG
  refine Finset.sum_congr rfl fun ω _ => ?_
  congr 1
  rw [← card_accept hM h0]
  set A := (range M).filter fun k : ℕ => bernoulliLogp tiny ((k : ℝ) / M) (l ω) with hA
  have hsplit : (((range M).filter fun k : ℕ => f ω ((k : ℝ) / M) = y).card : ℝ)
      = (if y1 ω = y then (A.card : ℝ) else 0) + (if y0 ω = y then (M : ℝ) - A.card else 0) := by
    have hR : (((range M).filter fun k : ℕ => ¬ bernoulliLogp tiny ((k : ℝ) / M) (l ω)).card : ℝ) = M - A.card := by
      have := Finset.card_filter_add_card_filter_not (s := range M) (fun k : ℕ => bernoulliLogp tiny ((k : ℝ) / M) (l ω))
      rw [card_range] at this
      rw [eq_sub_iff_add_eq', ← Nat.cast_add, this]
    have hd := Finset.card_filter_add_card_filter_not (s := (range M).filter fun k : ℕ => f ω ((k : ℝ) / M) = y)
      (fun k : ℕ => bernoulliLogp tiny ((k : ℝ) / M) (l ω))
    rw [Finset.filter_filter, Finset.filter_filter] at hd
    have e1 : (((range M).filter fun k : ℕ => f ω ((k : ℝ) / M) = y ∧ bernoulliLogp tiny ((k : ℝ) / M) (l ω)).card : ℝ)
        = if y1 ω = y then (A.card : ℝ) else 0 := by
      by_cases hy : y1 ω = y
      · rw [if_pos hy]
        congr 2
        ext k
        simp only [hA, mem_filter]
        refine and_congr_right fun _ => ⟨fun hh => hh.2, fun hh => ⟨?_, hh⟩⟩
        rw [(h ω _).1 hh, hy]
      · rw [if_neg hy, Nat.cast_eq_zero, Finset.card_eq_zero, Finset.filter_eq_empty_iff]
        rintro k _ ⟨h1, h2⟩
        rw [(h ω _).1 h2] at h1
        exact hy h1
    have e2 : (((range M).filter fun k : ℕ => f ω ((k : ℝ) / M) = y ∧ ¬ bernoulliLogp tiny ((k : ℝ) / M) (l ω)).card : ℝ)
        = if y0 ω = y then (M : ℝ) - A.card else 0 := by
      by_cases hy : y0 ω = y
      · rw [if_pos hy, ← hR]
        congr 2
        ext k
        simp only [mem_filter]
        refine and_congr_right fun _ => ⟨fun hh => hh.2, fun hh => ⟨?_, hh⟩⟩
        rw [(h ω _).2 hh, hy]
      · rw [if_neg hy, Nat.cast_eq_zero, Finset.card_eq_zero, Finset.filter_eq_empty_iff]
        rintro k _ ⟨h1, h2⟩
        rw [(h ω _).2 h2] at h1
        exact hy h1
    rw [← e1, ← e2]
    exact_mod_cast hd.symm
  rw [hsplit, add_div]
  congr 1
  · split_ifs <;> simp
  · split_ifs
    · rw [sub_div, div_self hM']
    · simp

/-- Both laws of a step that uses the noise in the acceptance test only. -/
theorem laws_threshold [Fintype Ω] {M : ℕ} (hM : 0 < M) {tiny : ℝ} (h0 : 0 < tiny) {f : Ω → ℝ → Y}
    (hf : ∀ ω, Threshold tiny (f ω)) :
    ∃ (l : Ω → ℝ) (y1 y0 : Ω → Y), ∀ p : Ω → ℝ, ∀ y, open Classical in
      lawU p f y = ∑ ω, p ω * ((if y1 ω = y then acceptProb tiny (l ω) else 0) +
        (if y0 ω = y then 1 - acceptProb tiny (l ω) else 0)) ∧
      lawG M p f y = ∑ ω, p ω * ((if y1 ω = y then acceptGrid M tiny (l ω) else 0) +
        (if y0 ω = y then 1 - acceptGrid M tiny (l ω) else 0)) := by
  classical
  choose l y1 y0 h using hf
  refine ⟨l, y1, y0, fun p y => ⟨?_, ?_⟩⟩
  · refine Finset.sum_congr rfl fun ω _ => ?_
    have := lawU_mh (Ω := Unit) h0.le (fun _ => (1 : ℝ)) (fun _ => l ω) (fun _ => y1 ω) (y0 ω) y (fun _ => f ω)
      (fun _ u => (h ω u).1) (fun _ u => (h ω u).2)
    simp only [lawU, Finset.univ_unique, Finset.sum_singleton, one_mul] at this
    rw [this]
  · exact lawG_mh hM h0 p h y

/-- Finite precision moves a row of the kernel by at most `2 / M`. -/
theorem lawG_close [Fintype Ω] {M : ℕ} (hM : 0 < M) {tiny : ℝ} (h0 : 0 < tiny) {p : Ω → ℝ} (hp : IsProb p) {f : Ω → ℝ → Y}
    (hf : ∀ ω, Threshold tiny (f ω)) {e : X → Y} (he : Function.Injective e) (S : Finset X) :
    ∑ y ∈ S, |lawG M p f (e y) - lawU p f (e y)| ≤ 2 / M := by
  classical
  obtain ⟨l, y1, y0, h⟩ := laws_threshold hM h0 hf
  have hM' : (0 : ℝ) < M := by exact_mod_cast hM
  have hone : ∀ z : Y, ∑ y ∈ S, (if z = e y then (1 : ℝ) / M else 0) ≤ 1 / M := by
    intro z
    by_cases hz : ∃ y, z = e y
    · obtain ⟨y, rfl⟩ := hz
      have : ∀ y' ∈ S, (if e y = e y' then (1 : ℝ) / M else 0) = if y = y' then (1 : ℝ) / M else 0 :=
        fun y' _ => if_congr he.eq_iff rfl rfl
      rw [Finset.sum_congr rfl this, Finset.sum_ite_eq]
      split_ifs
      exacts [le_rfl, by positivity]
    · rw [Finset.sum_eq_zero fun y _ => if_neg fun hy => hz ⟨y, hy⟩]
      positivity
  calc ∑ y ∈ S, |lawG M p f (e y) - lawU p f (e y)|
      ≤ ∑ y ∈ S, ∑ ω, p ω * ((if y1 ω = e y then (1 : ℝ) / M else 0) + (if y0 ω = e y then (1 : ℝ) / M else 0)) := by
        refine Finset.sum_le_sum fun y _ => ?_
        rw [(h p (e y)).1, (h p (e y)).2, ← Finset.sum_sub_distrib]
        refine (Finset.abs_sum_le_sum_abs _ _).trans (Finset.sum_le_sum fun ω _ => ?_)
        rw [← mul_sub, abs_mul, abs_of_nonneg (hp.1 ω)]
        refine mul_le_mul_of_nonneg_left ?_ (hp.1 ω)
        have hc := acceptGrid_close hM tiny (l ω)
        have hpos : (0 : ℝ) < 1 / M := by positivity
        rw [abs_le]
        split_ifs <;> constructor <;> linarith
    _ = ∑ ω, p ω * ((∑ y ∈ S, if y1 ω = e y then (1 : ℝ) / M else 0) + ∑ y ∈ S, if y0 ω = e y then (1 : ℝ) / M else 0) := by
        rw [Finset.sum_comm]
        exact Finset.sum_congr rfl fun ω _ => by rw [← Finset.mul_sum, Finset.sum_add_distrib]
    _ ≤ ∑ ω, p ω * (2 / M) := by
        refine Finset.sum_le_sum fun ω _ => mul_le_mul_of_nonneg_left ?_ (hp.1 ω)
        have := hone (y1 ω)
        have := hone (y0 ω)
        have : (2 : ℝ) / M = 1 / M + 1 / M := by ring
        linarith
    _ = 2 / M := by rw [← Finset.sum_mul, hp.2, one_mul]

/-- Finite precision keeps a probability kernel a probability kernel on the same states. -/
theorem stochastic_lawG [Fintype Ω] {M : ℕ} (hM : 0 < M) {tiny : ℝ} (h0 : 0 < tiny) {p : X → Ω → ℝ} {f : X → Ω → ℝ → Y}
    {S : Finset X} (hp : ∀ x ∈ S, IsProb (p x)) (hf : ∀ x ∈ S, ∀ ω, Threshold tiny (f x ω)) {e : X → Y}
    (he : Function.Injective e) (hs : Stochastic S fun x y => lawU (p x) (f x) (e y)) :
    Stochastic S fun x y => lawG M (p x) (f x) (e y) := by
  classical
  have hM' : (0 : ℝ) < M := by exact_mod_cast hM
  refine ⟨fun x hx y => Finset.sum_nonneg fun ω _ => mul_nonneg ((hp x hx).1 ω) (by positivity), fun x hx => ?_,
    fun x hx y hy => ?_⟩
  · obtain ⟨l, y1, y0, h⟩ := laws_threshold hM h0 (hf x hx)
    have hsum : ∀ A : Ω → ℝ, ∑ y ∈ S, ∑ ω, p x ω * ((if y1 ω = e y then A ω else 0) + (if y0 ω = e y then 1 - A ω else 0))
        = ∑ ω, p x ω * ((if ∃ y ∈ S, y1 ω = e y then A ω else 0) + (if ∃ y ∈ S, y0 ω = e y then 1 - A ω else 0)) := by
      intro A
      rw [Finset.sum_comm]
      refine Finset.sum_congr rfl fun ω _ => ?_
      rw [← Finset.mul_sum, Finset.sum_add_distrib]
      have key : ∀ (z : Y) (a : ℝ), ∑ y ∈ S, (if z = e y then a else 0) = if ∃ y ∈ S, z = e y then a else 0 := by
        intro z a
        by_cases hz : ∃ y ∈ S, z = e y
        · obtain ⟨y, hy, rfl⟩ := hz
          rw [if_pos ⟨y, hy, rfl⟩, Finset.sum_congr rfl fun y' _ => if_congr (he.eq_iff (a := y) (b := y')) rfl rfl,
            Finset.sum_ite_eq, if_pos hy]
        · rw [if_neg hz]
          exact Finset.sum_eq_zero fun y hy => if_neg fun hh => hz ⟨y, hy, hh⟩
      rw [key, key]
    have hU : ∑ y ∈ S, lawU (p x) (f x) (e y) = 1 := hs.2.1 x hx
    rw [Finset.sum_congr rfl fun y _ => (h (p x) (e y)).1, hsum] at hU
    rw [Finset.sum_congr rfl fun y _ => (h (p x) (e y)).2, hsum]
    refine Eq.trans ?_ (hp x hx).2
    replace hU := hU.trans (hp x hx).2.symm
    have hle : ∀ ω ∈ univ, p x ω * ((if ∃ y ∈ S, y1 ω = e y then acceptProb tiny (l ω) else 0) +
        (if ∃ y ∈ S, y0 ω = e y then 1 - acceptProb tiny (l ω) else 0)) ≤ p x ω := by
      intro ω _
      refine mul_le_of_le_one_right ((hp x hx).1 ω) ?_
      have := acceptProb_nonneg tiny (l ω)
      have := acceptProb_le_one tiny (l ω)
      split_ifs <;> linarith
    have heq := (Finset.sum_eq_sum_iff_of_le hle).1 hU
    refine Finset.sum_congr rfl fun ω hω => ?_
    have hω := heq ω hω
    by_cases hpw : p x ω = 0
    · rw [hpw, zero_mul]
    · have hb := mul_left_cancel₀ hpw (hω.trans (mul_one _).symm)
      have e1 : (if ∃ y ∈ S, y1 ω = e y then acceptGrid M tiny (l ω) else 0) +
          (if ∃ y ∈ S, y0 ω = e y then 1 - acceptGrid M tiny (l ω) else 0) = 1 := by
        by_cases c1 : ∃ y ∈ S, y1 ω = e y <;> by_cases c0 : ∃ y ∈ S, y0 ω = e y
        · rw [if_pos c1, if_pos c0]; ring
        · rw [if_pos c1, if_neg c0, add_zero] at hb
          rw [if_pos c1, if_neg c0, add_zero, acceptGrid_one hM hb]
        · rw [if_neg c1, if_pos c0, zero_add] at hb
          rw [if_neg c1, if_pos c0, zero_add, acceptGrid_zero (by linarith)]; ring
        · rw [if_neg c1, if_neg c0] at hb
          norm_num at hb
      rw [e1, mul_one]
  · obtain ⟨l, y1, y0, h⟩ := laws_threshold hM h0 (hf x hx)
    have hU : lawU (p x) (f x) (e y) = 0 := hs.2.2 x hx y hy
    rw [(h (p x) (e y)).1, Finset.sum_eq_zero_iff_of_nonneg] at hU
    · change lawG M (p x) (f x) (e y) = 0
      rw [(h (p x) (e y)).2]
      refine Finset.sum_eq_zero fun ω hω => ?_
      rcases mul_eq_zero.1 (hU ω hω) with h1 | h1
      · rw [h1, zero_mul]
      · have a0 := acceptProb_nonneg tiny (l ω)
        have a1 := acceptProb_le_one tiny (l ω)
        refine mul_eq_zero_of_right _ ?_
        by_cases c1 : y1 ω = e y <;> by_cases c0 : y0 ω = e y
        · rw [if_pos c1, if_pos c0] at h1
          norm_num at h1
        · rw [if_pos c1, if_neg c0, add_zero] at h1
          rw [if_pos c1, if_neg c0, add_zero, acceptGrid_zero h1]
        · rw [if_neg c1, if_pos c0, zero_add] at h1
          rw [if_neg c1, if_pos c0, zero_add, acceptGrid_one hM (by linarith)]; ring
        · rw [if_neg c1, if_neg c0, add_zero]
    · intro ω _
      have a0 := acceptProb_nonneg tiny (l ω)
      have a1 := acceptProb_le_one tiny (l ω)
      refine mul_nonneg ((hp x hx).1 ω) (add_nonneg ?_ ?_)
      · split_ifs <;> linarith
      · split_ifs <;> linarith

/-- A run with noise of finite precision, given the same run with ideal noise. -/
theorem nearlyInvariant_grid [DecidableEq X] {M : ℕ} (hM : 0 < M) {tiny : ℝ} (h0 : 0 < tiny) {S : Finset X} {π : X → ℝ}
    (hπ : ∀ x ∈ S, 0 ≤ π x) {Ω : ℕ → Type*} [∀ t, Fintype (Ω t)] {p : ∀ t, X → Ω t → ℝ} {f : ∀ t, X → Ω t → ℝ → Y} {e : X → Y}
    (he : Function.Injective e) (hp : ∀ t, ∀ x ∈ S, IsProb (p t x)) (hf : ∀ t, ∀ x ∈ S, ∀ ω, Threshold tiny (f t x ω))
    (hs : ∀ t, Stochastic S fun x y => lawU (p t x) (f t x) (e y)) {ε : ℝ}
    (hn : ∀ t, NearlyInvariant S π (fun x y => lawU (p t x) (f t x) (e y)) ε) (n : ℕ) :
    NearlyInvariant S π (iterate S (fun t x y => lawG M (p t x) (f t x) (e y)) n) (n * (ε + 2 / M)) :=
  nearlyInvariant_iterate (fun t => stochastic_lawG hM h0 (hp t) (hf t) he (hs t))
    (fun t => (hn t).of_close hπ fun x hx => lawG_close hM h0 (hp t x hx) (hf t x hx) he S) n

end Discs.Spec
