import Verif.Spec.BatchRun
import Verif.Spec.Search
import Verif.Lemmas.AdaptiveHits
import Verif.Lemmas.Report

/-!
# Lemmas on runs of a batch whose sampler has a state
-/

namespace Discs.Spec

open Finset MeasureTheory

variable {B : ℕ}

/-- Probability of one pattern of acceptances. -/
noncomputable def patProb (q : Fin B → ℝ) (a : Fin B → Bool) : ℝ := ∏ b, if a b then q b else 1 - q b

open Classical in
theorem integral_accepts {tiny : ℝ} (h0 : 0 ≤ tiny) (l : Fin B → ℝ) (F : (Fin B → Bool) → ℝ) :
    ∫ u in unitCube B, F (fun b => decide (bernoulliLogp tiny (u b) (l b))) =
      ∑ a, patProb (fun b => acceptProb tiny (l b)) a * F a := by
  let E : (Fin B → Bool) → Fin B → Set ℝ := fun a b =>
    {u : ℝ | u ∈ Set.Ico (0 : ℝ) 1 ∧ decide (bernoulliLogp tiny u (l b)) = a b}
  have hEt : ∀ a b, a b = true → E a b = {u : ℝ | u ∈ Set.Ico (0 : ℝ) 1 ∧ bernoulliLogp tiny u (l b)} := by
    intro a b h; ext u; simp [E, h]
  have hEf : ∀ a b, a b = false → E a b = {u : ℝ | u ∈ Set.Ico (0 : ℝ) 1 ∧ ¬ bernoulliLogp tiny u (l b)} := by
    intro a b h; ext u; simp [E, h]
  have hEm : ∀ a b, MeasurableSet (E a b) := by
    intro a b
    cases h : a b
    · rw [hEf a b h]
      have : {u : ℝ | u ∈ Set.Ico (0 : ℝ) 1 ∧ ¬ bernoulliLogp tiny u (l b)} =
          Set.Ico (0 : ℝ) 1 \ {u : ℝ | u ∈ Set.Ico (0 : ℝ) 1 ∧ bernoulliLogp tiny u (l b)} := by
        ext u; simp only [Set.mem_ofPred_eq, Set.mem_sdiff]; tauto
      rw [this]
      exact measurableSet_Ico.diff (measurable_accept tiny (l b))
    · rw [hEt a b h]; exact measurable_accept tiny (l b)
  have hvol : ∀ a b, (volume (E a b)).toReal = if a b then acceptProb tiny (l b) else 1 - acceptProb tiny (l b) := by
    intro a b
    cases h : a b
    · rw [hEf a b h, volume_reject h0]; rfl
    · rw [hEt a b h, volume_accept h0]; rfl
  have hcube : unitCube B = Set.univ.pi fun _ => Set.Ico (0 : ℝ) 1 := by
    ext u; simp [unitCube]
  have hcm : MeasurableSet (unitCube B) := by
    rw [hcube]; exact MeasurableSet.univ_pi fun _ => measurableSet_Ico
  have hfin : volume (unitCube B) ≠ ⊤ := by
    rw [hcube, volume_pi_pi]
    exact ENNReal.prod_ne_top fun _ _ => by rw [Real.volume_Ico]; exact ENNReal.ofReal_ne_top
  have hpm : ∀ a, MeasurableSet (Set.univ.pi (E a)) := fun a => MeasurableSet.univ_pi fun b => hEm a b
  have hfun : ∀ u ∈ unitCube B, F (fun b => decide (bernoulliLogp tiny (u b) (l b))) =
      ∑ a, (Set.univ.pi (E a)).indicator (fun _ => F a) u := by
    intro u hu
    rw [Finset.sum_eq_single fun b => decide (bernoulliLogp tiny (u b) (l b))]
    · rw [Set.indicator_of_mem]
      exact fun b _ => ⟨hu b, rfl⟩
    · intro a _ hne
      refine Set.indicator_of_notMem (fun h => hne ?_) _
      funext b
      exact ((h b (Set.mem_univ b)).2).symm
    · intro h; exact absurd (mem_univ _) h
  rw [setIntegral_congr_fun hcm hfun, integral_finsetSum]
  · refine Finset.sum_congr rfl fun a _ => ?_
    rw [setIntegral_indicator (hpm a)]
    have hinter : unitCube B ∩ Set.univ.pi (E a) = Set.univ.pi (E a) :=
      Set.inter_eq_right.2 fun u hu b => (hu b (Set.mem_univ b)).1
    rw [hinter, setIntegral_const, smul_eq_mul]
    congr 1
    show (volume (Set.univ.pi (E a))).toReal = _
    rw [volume_pi_pi, ENNReal.toReal_prod]
    exact Finset.prod_congr rfl fun b _ => hvol a b
  · intro a _
    exact (integrableOn_const hfin).indicator (hpm a)

theorem patProb_nonneg {q : Fin B → ℝ} (h0 : ∀ b, 0 ≤ q b) (h1 : ∀ b, q b ≤ 1) (a : Fin B → Bool) :
    0 ≤ patProb q a := by
  refine Finset.prod_nonneg fun b _ => ?_
  split_ifs
  · exact h0 b
  · linarith [h1 b]

theorem sum_patProb_prod (q : Fin B → ℝ) (G : Fin B → Bool → ℝ) :
    ∑ a, patProb q a * ∏ b, G b (a b) = ∏ b, (q b * G b true + (1 - q b) * G b false) := by
  have e : ∀ b, q b * G b true + (1 - q b) * G b false = ∑ c : Bool, (if c then q b else 1 - q b) * G b c := by
    intro b; simp
  simp only [e]
  rw [Finset.prod_univ_sum]
  refine Finset.sum_congr Fintype.piFinset_univ.symm fun a _ => ?_
  unfold patProb
  rw [← Finset.prod_mul_distrib]

theorem sum_patProb (q : Fin B → ℝ) : ∑ a, patProb q a = 1 := by
  have := sum_patProb_prod q fun _ _ => 1
  simpa using this

variable {X St : Type*} {Ω : St → Type*} [∀ s, Fintype (Ω s)]

/-- What is accepted in a batch. -/
def sel (mv x : Fin B → X) (a : Fin B → Bool) : Fin B → X := fun b => if a b then mv b else x b

open Classical in
/-- Every chain accepts or rejects its own proposal; the next state is known before the acceptance tests. -/
structure BatchAccRej (S : Finset X) (tiny : ℝ) (p : ℕ → ∀ s, X → Ω s → ℝ)
    (step : ℕ → ∀ s, (Fin B → X) → (Fin B → Ω s) → (Fin B → ℝ) → (Fin B → X) × St)
    (mv : ℕ → ∀ s, X → Ω s → X) (la : ℕ → ∀ s, X → Ω s → ℝ) (nx : ℕ → ∀ s, (Fin B → X) → (Fin B → Ω s) → St) :
    Prop where
  prob : ∀ k s, ∀ x ∈ S, IsProb (p k s x)
  closed : ∀ k s, ∀ x ∈ S, ∀ ω, mv k s x ω ∈ S
  state : ∀ k s x, (∀ b, x b ∈ S) → ∀ ω u, (step k s x ω u).2 = nx k s x ω
  rows : ∀ k s x, (∀ b, x b ∈ S) → ∀ ω u, (step k s x ω u).1 =
    sel (fun b => mv k s (x b) (ω b)) x fun b => decide (bernoulliLogp tiny (u b) (la k s (x b) (ω b)))

variable {S : Finset X} {tiny : ℝ} {p : ℕ → ∀ s, X → Ω s → ℝ}
  {step : ℕ → ∀ s, (Fin B → X) → (Fin B → Ω s) → (Fin B → ℝ) → (Fin B → X) × St}
  {mv : ℕ → ∀ s, X → Ω s → X} {la : ℕ → ∀ s, X → Ω s → ℝ} {nx : ℕ → ∀ s, (Fin B → X) → (Fin B → Ω s) → St}
  {Φ : List (Fin B → X) → ℝ}

theorem sel_mem {y x : Fin B → X} (hy : ∀ b, y b ∈ S) (hx : ∀ b, x b ∈ S) (a : Fin B → Bool) (b : Fin B) :
    sel y x a b ∈ S := by
  unfold sel
  split_ifs
  · exact hy b
  · exact hx b

/-- Weight of the draws `ω` and the acceptances `a` in a step. -/
noncomputable def stepWeight (tiny : ℝ) (p : ℕ → ∀ s, X → Ω s → ℝ) (la : ℕ → ∀ s, X → Ω s → ℝ) (k : ℕ) (s : St)
    (x : Fin B → X) (ω : Fin B → Ω s) (a : Fin B → Bool) : ℝ :=
  (∏ b, p k s (x b) (ω b)) * patProb (fun b => acceptProb tiny (la k s (x b) (ω b))) a

namespace BatchAccRej

theorem succ (H : BatchAccRej S tiny p step mv la nx) (h0 : 0 ≤ tiny) (n k : ℕ) (s : St) (h : List (Fin B → X))
    {x : Fin B → X} (hx : ∀ b, x b ∈ S) :
    batchExpect p step Φ (n + 1) k s h x = ∑ ω, ∑ a, stepWeight tiny p la k s x ω a *
      batchExpect p step Φ n (k + 1) (nx k s x ω) (h ++ [sel (fun b => mv k s (x b) (ω b)) x a])
        (sel (fun b => mv k s (x b) (ω b)) x a) := by
  classical
  rw [batchExpect]
  refine Finset.sum_congr rfl fun ω _ => ?_
  simp only [H.state k s x hx, H.rows k s x hx]
  rw [integral_accepts h0 (fun b => la k s (x b) (ω b)) fun a =>
    batchExpect p step Φ n (k + 1) (nx k s x ω) (h ++ [sel (fun b => mv k s (x b) (ω b)) x a])
        (sel (fun b => mv k s (x b) (ω b)) x a), Finset.mul_sum]
  exact Finset.sum_congr rfl fun a _ => (mul_assoc _ _ _).symm

theorem weight_nonneg (H : BatchAccRej S tiny p step mv la nx) (k : ℕ) (s : St) {x : Fin B → X} (hx : ∀ b, x b ∈ S)
    (ω : Fin B → Ω s) (a : Fin B → Bool) : 0 ≤ stepWeight tiny p la k s x ω a :=
  mul_nonneg (Finset.prod_nonneg fun b _ => (H.prob k s (x b) (hx b)).1 _)
    (patProb_nonneg (fun _ => acceptProb_nonneg _ _) (fun _ => acceptProb_le_one _ _) a)

theorem weight_sum (H : BatchAccRej S tiny p step mv la nx) (k : ℕ) (s : St) {x : Fin B → X} (hx : ∀ b, x b ∈ S) :
    ∑ ω : Fin B → Ω s, ∑ a, stepWeight tiny p la k s x ω a = 1 := by
  classical
  unfold stepWeight
  simp only [← Finset.mul_sum, sum_patProb, mul_one]
  have e := (Finset.prod_univ_sum (fun _ : Fin B => (univ : Finset (Ω s))) fun b ω => p k s (x b) ω).symm
  rw [Fintype.piFinset_univ] at e
  rw [e]
  exact Finset.prod_eq_one fun b _ => (H.prob k s (x b) (hx b)).2

end BatchAccRej

/-- Some step someone looks at shows an element of `A` in some chain. -/
def ShownAt (look : ℕ → Prop) (A : Finset X) (h : List (Fin B → X)) : Prop :=
  ∃ (i : ℕ) (y : Fin B → X), h[i]? = some y ∧ look i ∧ ∃ b, y b ∈ A

theorem shown_append (look : ℕ → Prop) (A : Finset X) (h : List (Fin B → X)) (y : Fin B → X) :
    ShownAt look A (h ++ [y]) ↔ ShownAt look A h ∨ look h.length ∧ ∃ b, y b ∈ A := by
  constructor
  · rintro ⟨i, z, hi, hl, hz⟩
    rcases lt_trichotomy i h.length with e | e | e
    · rw [List.getElem?_append_left e] at hi
      exact Or.inl ⟨i, z, hi, hl, hz⟩
    · subst e
      rw [List.getElem?_append_right le_rfl] at hi
      simp only [Nat.sub_self, List.getElem?_cons_zero, Option.some.injEq] at hi
      subst hi
      exact Or.inr ⟨hl, hz⟩
    · rw [List.getElem?_eq_none (by simp; omega)] at hi
      cases hi
  · rintro (⟨i, z, hi, hl, hz⟩ | ⟨hl, hz⟩)
    · refine ⟨i, z, ?_, hl, hz⟩
      rw [List.getElem?_append_left (List.getElem?_eq_some_iff.1 hi).1]
      exact hi
    · exact ⟨h.length, y, by simp, hl, hz⟩

/-- With weight at least `δ` at every step the batch shows an element of `A` at a step someone looks at, within `m` steps. -/
def CanShow (tiny δ : ℝ) (p : ℕ → ∀ s, X → Ω s → ℝ) (mv : ℕ → ∀ s, X → Ω s → X) (la : ℕ → ∀ s, X → Ω s → ℝ)
    (nx : ℕ → ∀ s, (Fin B → X) → (Fin B → Ω s) → St) (look : ℕ → Prop) (A : Finset X) :
    ℕ → ℕ → St → (Fin B → X) → Prop
  | 0, _, _, _ => False
  | m + 1, k, s, x => ∃ ω a, δ ≤ stepWeight tiny p la k s x ω a ∧
      ((look k ∧ ∃ b, sel (fun b => mv k s (x b) (ω b)) x a b ∈ A) ∨
        CanShow tiny δ p mv la nx look A m (k + 1) (nx k s x ω) (sel (fun b => mv k s (x b) (ω b)) x a))

namespace BatchAccRej

variable {look : ℕ → Prop} {A : Finset X}

/-- A run that has shown `A` cannot miss it any more. -/
theorem shown_zero (H : BatchAccRej S tiny p step mv la nx) (h0 : 0 ≤ tiny)
    (hΦ : ∀ h, ShownAt look A h → Φ h ≤ 0) (n : ℕ) : ∀ k s h x, (∀ b, x b ∈ S) → ShownAt look A h →
      batchExpect p step Φ n k s h x ≤ 0 := by
  induction n with
  | zero => intro k s h x _ hs; exact hΦ h hs
  | succ n ih =>
    intro k s h x hx hs
    rw [H.succ h0 n k s h hx]
    refine Finset.sum_nonpos fun ω _ => Finset.sum_nonpos fun a _ =>
      mul_nonpos_of_nonneg_of_nonpos (H.weight_nonneg k s hx ω a) ?_
    exact ih _ _ _ _ (sel_mem (fun b => H.closed k s _ (hx b) _) hx a) ((shown_append _ _ _ _).2 (Or.inl hs))

theorem le_one (H : BatchAccRej S tiny p step mv la nx) (h0 : 0 ≤ tiny) (hΦ1 : ∀ h, Φ h ≤ 1) (n : ℕ) :
    ∀ k s h x, (∀ b, x b ∈ S) → batchExpect p step Φ n k s h x ≤ 1 := by
  induction n with
  | zero => intro k s h x _; exact hΦ1 h
  | succ n ih =>
    intro k s h x hx
    rw [H.succ h0 n k s h hx, ← H.weight_sum k s hx]
    refine Finset.sum_le_sum fun ω _ => Finset.sum_le_sum fun a _ =>
      mul_le_of_le_one_right (H.weight_nonneg k s hx ω a) ?_
    exact ih _ _ _ _ (sel_mem (fun b => H.closed k s _ (hx b) _) hx a)

/-- One step of which one outcome is known to be better. -/
theorem succ_le (H : BatchAccRej S tiny p step mv la nx) (h0 : 0 ≤ tiny) {n k : ℕ} {s : St} {h : List (Fin B → X)}
    {x : Fin B → X} (hx : ∀ b, x b ∈ S) {c w δ : ℝ} (hw : 0 ≤ w)
    (hc : ∀ ω (y : Fin B → X), (∀ b, y b ∈ S) → batchExpect p step Φ n (k + 1) (nx k s x ω) (h ++ [y]) y ≤ c)
    {ω₀ : Fin B → Ω s} {a₀ : Fin B → Bool} (hδ : δ ≤ stepWeight tiny p la k s x ω₀ a₀)
    (hd : batchExpect p step Φ n (k + 1) (nx k s x ω₀) (h ++ [sel (fun b => mv k s (x b) (ω₀ b)) x a₀])
      (sel (fun b => mv k s (x b) (ω₀ b)) x a₀) ≤ c - w) :
    batchExpect p step Φ (n + 1) k s h x ≤ c - δ * w := by
  classical
  rw [H.succ h0 n k s h hx]
  calc _ ≤ ∑ ω, ∑ a, stepWeight tiny p la k s x ω a * (c - if ω = ω₀ ∧ a = a₀ then w else 0) := by
        refine Finset.sum_le_sum fun ω _ => Finset.sum_le_sum fun a _ =>
          mul_le_mul_of_nonneg_left ?_ (H.weight_nonneg k s hx ω a)
        split_ifs with e
        · obtain ⟨rfl, rfl⟩ := e; exact hd
        · rw [sub_zero]; exact hc ω _ (sel_mem (fun b => H.closed k s _ (hx b) _) hx a)
    _ = c - stepWeight tiny p la k s x ω₀ a₀ * w := by
        simp only [mul_sub, Finset.sum_sub_distrib, ← Finset.sum_mul, H.weight_sum k s hx, one_mul]
        congr 1
        rw [Finset.sum_eq_single ω₀, Finset.sum_eq_single a₀]
        · rw [if_pos ⟨rfl, rfl⟩]
        · intro a _ ha; rw [if_neg (fun e => ha e.2), mul_zero]
        · intro e; exact absurd (mem_univ _) e
        · intro ω _ hω; exact Finset.sum_eq_zero fun a _ => by rw [if_neg (fun e => hω e.1), mul_zero]
        · intro e; exact absurd (mem_univ _) e
    _ ≤ _ := by nlinarith

/-- If from everywhere steps of weight at least `δ` show `A` within `M` steps, the probability to miss `A` at the steps
someone looks at shrinks geometrically. -/
theorem miss_le (H : BatchAccRej S tiny p step mv la nx) (h0 : 0 ≤ tiny) (hΦ1 : ∀ h, Φ h ≤ 1)
    (hΦ : ∀ h, ShownAt look A h → Φ h ≤ 0) {δ : ℝ} (hδ : 0 ≤ δ) (hδ1 : δ ≤ 1) {M N : ℕ}
    (hcan : ∀ k, k + M ≤ N → ∀ s x, (∀ b, x b ∈ S) → CanShow tiny δ p mv la nx look A M k s x) (j : ℕ) :
    ∀ n, j * M ≤ n → ∀ k s h x, h.length = k → k + n ≤ N → (∀ b, x b ∈ S) →
      batchExpect p step Φ n k s h x ≤ (1 - δ ^ M) ^ j := by
  induction j with
  | zero => intro n _ k s h x _ _ hx; rw [pow_zero]; exact H.le_one h0 hΦ1 n k s h x hx
  | succ j ih =>
    have hc0 : 0 ≤ (1 - δ ^ M) ^ j := pow_nonneg (by linarith [pow_le_one₀ (n := M) hδ hδ1]) j
    have key : ∀ m k s x, (∀ b, x b ∈ S) → CanShow tiny δ p mv la nx look A m k s x → ∀ n h, h.length = k →
        j * M + m ≤ n → k + n ≤ N → batchExpect p step Φ n k s h x ≤ (1 - δ ^ M) ^ j * (1 - δ ^ m) := by
      intro m
      induction m with
      | zero => intro k s x _ hs; exact absurd hs id
      | succ m ihm =>
        rintro k s x hx ⟨ω, a, hw, hs⟩ n h hl hn hN
        obtain ⟨n, rfl⟩ : ∃ n', n = n' + 1 := ⟨n - 1, by omega⟩
        have hm0 : 0 ≤ δ ^ m := pow_nonneg hδ m
        have hm1 : δ ^ m ≤ 1 := pow_le_one₀ hδ hδ1
        have hy := sel_mem (fun b => H.closed k s _ (hx b) (ω b)) hx a
        have := H.succ_le (Φ := Φ) (h := h) h0 hx (c := (1 - δ ^ M) ^ j) (w := (1 - δ ^ M) ^ j * δ ^ m)
          (mul_nonneg hc0 hm0)
          (fun ω y hy => ih n (by omega) (k + 1) _ _ y (by simp [hl]) (by omega) hy) hw (by
            rcases hs with hs | hs
            · refine (H.shown_zero h0 hΦ n _ _ _ _ hy ((shown_append _ _ _ _).2 (Or.inr ⟨hl ▸ hs.1, hs.2⟩))).trans ?_
              nlinarith
            · refine (ihm (k + 1) _ _ hy hs n _ (by simp [hl]) (by omega) (by omega)).trans (le_of_eq ?_)
              ring)
        refine this.trans (le_of_eq ?_)
        rw [pow_succ]; ring
    intro n hn k s h x hl hN hx
    rw [add_mul, one_mul] at hn
    rw [pow_succ]
    exact key M k s x hx (hcan k (by omega) s x hx) n h hl (by omega) hN

end BatchAccRej

/-! ### Chain by chain -/

/-- Expected value of `G` at the next sample of one chain. -/
noncomputable def rowMean (tiny : ℝ) (p : ℕ → ∀ s, X → Ω s → ℝ) (mv : ℕ → ∀ s, X → Ω s → X)
    (la : ℕ → ∀ s, X → Ω s → ℝ) (k : ℕ) (s : St) (x : X) (G : X → ℝ) : ℝ :=
  ∑ ω, p k s x ω * (acceptProb tiny (la k s x ω) * G (mv k s x ω) + (1 - acceptProb tiny (la k s x ω)) * G x)

open Classical in
/-- Probability that one chain misses `A` when the sampler state at every step is the worst. -/
noncomputable def missSup (tiny : ℝ) (p : ℕ → ∀ s, X → Ω s → ℝ) (mv : ℕ → ∀ s, X → Ω s → X)
    (la : ℕ → ∀ s, X → Ω s → ℝ) (look : ℕ → Prop) (A : Finset X) : ℕ → ℕ → X → ℝ
  | 0, _, _ => 1
  | n + 1, k, x => ⨆ s : St, rowMean tiny p mv la k s x fun z =>
      if look k ∧ z ∈ A then 0 else missSup tiny p mv la look A n (k + 1) z

namespace BatchAccRej

variable {look : ℕ → Prop} {A : Finset X}

theorem rowMean_mono (H : BatchAccRej S tiny p step mv la nx) {k : ℕ} {s : St} {x : X} (hx : x ∈ S) {F G : X → ℝ}
    (h : ∀ z ∈ S, F z ≤ G z) : rowMean tiny p mv la k s x F ≤ rowMean tiny p mv la k s x G := by
  refine Finset.sum_le_sum fun ω _ => mul_le_mul_of_nonneg_left ?_ ((H.prob k s x hx).1 ω)
  have a0 := acceptProb_nonneg tiny (la k s x ω)
  have a1 := acceptProb_le_one tiny (la k s x ω)
  have e1 := h _ (H.closed k s x hx ω)
  have e2 := h x hx
  nlinarith

theorem rowMean_const (H : BatchAccRej S tiny p step mv la nx) {k : ℕ} {s : St} {x : X} (hx : x ∈ S) (c : ℝ) :
    rowMean tiny p mv la k s x (fun _ => c) = c := by
  unfold rowMean
  have : ∀ ω, p k s x ω * (acceptProb tiny (la k s x ω) * c + (1 - acceptProb tiny (la k s x ω)) * c) = p k s x ω * c :=
    fun ω => by ring
  simp only [this, ← Finset.sum_mul, (H.prob k s x hx).2, one_mul]

theorem rowMean_gain (H : BatchAccRej S tiny p step mv la nx) {k : ℕ} {s : St} {x : X} (hx : x ∈ S) {G : X → ℝ}
    {c w δ : ℝ} (hw : 0 ≤ w) (hc : ∀ z ∈ S, G z ≤ c) {ω₀ : Ω s} (hδ : δ ≤ p k s x ω₀ * acceptProb tiny (la k s x ω₀))
    (hd : G (mv k s x ω₀) ≤ c - w) : rowMean tiny p mv la k s x G ≤ c - δ * w := by
  classical
  have hp := H.prob k s x hx
  calc rowMean tiny p mv la k s x G ≤
        ∑ ω, p k s x ω * (c - if ω = ω₀ then acceptProb tiny (la k s x ω) * w else 0) := by
        refine Finset.sum_le_sum fun ω _ => mul_le_mul_of_nonneg_left ?_ (hp.1 ω)
        have a0 := acceptProb_nonneg tiny (la k s x ω)
        have a1 := acceptProb_le_one tiny (la k s x ω)
        have e2 := hc x hx
        split_ifs with e
        · subst e; nlinarith
        · have e1 := hc _ (H.closed k s x hx ω); nlinarith
    _ = c - p k s x ω₀ * acceptProb tiny (la k s x ω₀) * w := by
        simp only [mul_sub, Finset.sum_sub_distrib, ← Finset.sum_mul, hp.2, one_mul, mul_ite, mul_zero]
        rw [Finset.sum_ite_eq', if_pos (mem_univ _), mul_assoc]
    _ ≤ _ := by nlinarith

variable [Nonempty St]

theorem missSup_mem (H : BatchAccRej S tiny p step mv la nx) (n : ℕ) : ∀ k, ∀ x ∈ S,
    0 ≤ missSup tiny p mv la look A n k x ∧ missSup tiny p mv la look A n k x ≤ 1 := by
  classical
  induction n with
  | zero => intro k x _; exact ⟨zero_le_one, le_rfl⟩
  | succ n ih =>
    intro k x hx
    have hG : ∀ z ∈ S, 0 ≤ (if look k ∧ z ∈ A then 0 else missSup tiny p mv la look A n (k + 1) z) ∧
        (if look k ∧ z ∈ A then 0 else missSup tiny p mv la look A n (k + 1) z) ≤ 1 := by
      intro z hz
      split_ifs
      · exact ⟨le_rfl, zero_le_one⟩
      · exact ih _ z hz
    rw [missSup]
    refine ⟨Real.iSup_nonneg fun s => ?_, ciSup_le fun s => ?_⟩
    · exact (H.rowMean_const (k := k) (s := s) hx 0).ge.trans (H.rowMean_mono hx fun z hz => (hG z hz).1)
    · rw [← H.rowMean_const (k := k) (s := s) hx 1]
      exact H.rowMean_mono hx fun z hz => (hG z hz).2

/-- Moves of probability at least `δ`, whatever the state, lead into `A` at a step someone looks at. -/
theorem missSup_le (H : BatchAccRej S tiny p step mv la nx) {R : ℕ → X → X → Prop} {δ : ℝ} (hδ : 0 ≤ δ) (hδ1 : δ ≤ 1)
    {N : ℕ} (hR : ∀ k < N, ∀ s, ∀ x ∈ S, ∀ z ∈ S, R k x z → ∃ ω, mv k s x ω = z ∧
      δ ≤ p k s x ω * acceptProb tiny (la k s x ω)) {M : ℕ}
    (hreach : ∀ t, ∀ x ∈ S, Reaches S R look A M t x) (j : ℕ) :
    ∀ n, j * M ≤ n → ∀ k, k + n ≤ N → ∀ x ∈ S, missSup tiny p mv la look A n k x ≤ (1 - δ ^ M) ^ j := by
  classical
  induction j with
  | zero => intro n _ k _ x hx; rw [pow_zero]; exact (H.missSup_mem n k x hx).2
  | succ j ih =>
    have hc0 : 0 ≤ (1 - δ ^ M) ^ j := pow_nonneg (by linarith [pow_le_one₀ (n := M) hδ hδ1]) j
    have key : ∀ m, ∀ k, ∀ x ∈ S, Reaches S R look A m k x → ∀ n, j * M + m ≤ n → k + n ≤ N →
        missSup tiny p mv la look A n k x ≤ (1 - δ ^ M) ^ j * (1 - δ ^ m) := by
      intro m
      induction m with
      | zero => intro k x _ h; exact absurd h id
      | succ m ihm =>
        rintro k x hx ⟨z, hz, hxz, hrest⟩ n hn hN
        obtain ⟨n, rfl⟩ : ∃ n', n = n' + 1 := ⟨n - 1, by omega⟩
        have hm0 : 0 ≤ δ ^ m := pow_nonneg hδ m
        have hm1 : δ ^ m ≤ 1 := pow_le_one₀ hδ hδ1
        rw [missSup]
        refine ciSup_le fun s => ?_
        obtain ⟨ω, rfl, hp⟩ := hR k (by omega) s x hx z hz hxz
        refine (H.rowMean_gain hx (c := (1 - δ ^ M) ^ j) (w := (1 - δ ^ M) ^ j * δ ^ m) (mul_nonneg hc0 hm0)
          (fun w hw => ?_) hp ?_).trans (le_of_eq ?_)
        · split_ifs
          · exact hc0
          · exact ih n (by omega) (k + 1) (by omega) w hw
        · split_ifs with h
          · nlinarith
          · refine (ihm (k + 1) _ hz (hrest.resolve_left h) n (by omega) (by omega)).trans (le_of_eq ?_)
            ring
        · rw [pow_succ]; ring
    intro n hn k hN x hx
    rw [add_mul, one_mul] at hn
    rw [pow_succ]
    exact key M k x hx (hreach k x hx) n (by omega) hN

/-- The chains of the batch miss `A` at most as often as independent chains with the worst states. -/
theorem miss_le_prod (H : BatchAccRej S tiny p step mv la nx) (h0 : 0 ≤ tiny) (hΦ1 : ∀ h, Φ h ≤ 1)
    (hΦ : ∀ h, ShownAt look A h → Φ h ≤ 0) (n : ℕ) : ∀ k s h x, h.length = k → (∀ b, x b ∈ S) →
      batchExpect p step Φ n k s h x ≤ ∏ b, missSup tiny p mv la look A n k (x b) := by
  classical
  induction n with
  | zero => intro k s h x _ _; simpa [missSup, batchExpect] using hΦ1 h
  | succ n ih =>
    intro k s h x hl hx
    set G : X → ℝ := fun z => if look k ∧ z ∈ A then 0 else missSup tiny p mv la look A n (k + 1) z with hG
    have hG0 : ∀ z ∈ S, 0 ≤ G z ∧ G z ≤ 1 := by
      intro z hz
      simp only [hG]
      split_ifs
      · exact ⟨le_rfl, zero_le_one⟩
      · exact H.missSup_mem n _ z hz
    rw [H.succ h0 n k s h hx]
    calc _ ≤ ∑ ω, ∑ a, stepWeight tiny p la k s x ω a * ∏ b, G (sel (fun b => mv k s (x b) (ω b)) x a b) := by
          refine Finset.sum_le_sum fun ω _ => Finset.sum_le_sum fun a _ =>
            mul_le_mul_of_nonneg_left ?_ (H.weight_nonneg k s hx ω a)
          have hy := sel_mem (fun b => H.closed k s _ (hx b) (ω b)) hx a
          by_cases hs : look k ∧ ∃ b, sel (fun b => mv k s (x b) (ω b)) x a b ∈ A
          · exact (H.shown_zero h0 hΦ n _ _ _ _ hy ((shown_append _ _ _ _).2 (Or.inr (hl ▸ hs)))).trans
              (Finset.prod_nonneg fun b _ => (hG0 _ (hy b)).1)
          · refine (ih (k + 1) _ _ _ (by simp [hl]) hy).trans (le_of_eq (Finset.prod_congr rfl fun b _ => ?_))
            simp only [hG]
            rw [if_neg fun e => hs ⟨e.1, b, e.2⟩]
      _ = ∏ b, rowMean tiny p mv la k s (x b) G := by
          have e1 : ∀ ω : Fin B → Ω s, ∑ a, stepWeight tiny p la k s x ω a *
              ∏ b, G (sel (fun b => mv k s (x b) (ω b)) x a b) = ∏ b, (p k s (x b) (ω b) *
                (acceptProb tiny (la k s (x b) (ω b)) * G (mv k s (x b) (ω b)) +
                  (1 - acceptProb tiny (la k s (x b) (ω b))) * G (x b))) := by
            intro ω
            unfold stepWeight
            simp only [mul_assoc, ← Finset.mul_sum]
            rw [Finset.prod_mul_distrib]
            congr 1
            have := sum_patProb_prod (fun b => acceptProb tiny (la k s (x b) (ω b)))
              fun b c => G (if c then mv k s (x b) (ω b) else x b)
            simpa [sel] using this
          simp only [e1]
          unfold rowMean
          rw [Finset.prod_univ_sum, Fintype.piFinset_univ]
      _ ≤ _ := by
          refine Finset.prod_le_prod (fun b _ => ?_) fun b _ => ?_
          · rw [← H.rowMean_const (k := k) (s := s) (hx b) 0]
            exact H.rowMean_mono (hx b) fun z hz => (hG0 z hz).1
          · rw [missSup]
            refine le_ciSup (f := fun s => rowMean tiny p mv la k s (x b) G) ⟨1, ?_⟩ s
            rintro _ ⟨s', rfl⟩
            show rowMean tiny p mv la k s' (x b) G ≤ 1
            rw [← H.rowMean_const (k := k) (s := s') (hx b) 1]
            exact H.rowMean_mono (hx b) fun z hz => (hG0 z hz).2

end BatchAccRej

end Discs.Spec
