import Verif.Lemmas.SiteRun
import Verif.Spec.PathMean
import Verif.Props.AIS
import Verif.Props.AdaptiveAverages

/-!
# Annealed importance sampling on a model that looks at one site

The chain anneals from equal weights to `siteModel (w ^ L)`, step `k + 1` on the model where the value 0 has
weight `w ^ (k + 1)`.
-/

namespace Discs

open Finset Spec MeasureTheory

/-! ## From the path to a recursion -/

section Path

variable {X St : Type*} {Ω : St → Type*} [∀ s, Fintype (Ω s)]

/-- Expected product of the factors of the remaining `n` steps. -/
noncomputable def aisVal (p : ℕ → ∀ s, X → Ω s → ℝ) (step : ℕ → ∀ s, X → Ω s → ℝ → X × St)
    (inc : ℕ → X → ℝ) : ℕ → ℕ → St → X → ℝ
  | 0, _, _, _ => 1
  | n + 1, k, s, x => inc k x * ∑ ω, p k s x ω * ∫ u in Set.Ico (0 : ℝ) 1,
      aisVal p step inc n (k + 1) (step k s x ω u).2 (step k s x ω u).1

theorem getD_append_lt [Inhabited X] (h : List X) (x : X) {j : ℕ} (hj : j < h.length) :
    (h ++ [x]).getD j default = h.getD j default := by
  rw [List.getD_eq_getElem?_getD, List.getD_eq_getElem?_getD, List.getElem?_append_left hj]

theorem pathExpect_prod [Inhabited X] (p : ℕ → ∀ s, X → Ω s → ℝ) (step : ℕ → ∀ s, X → Ω s → ℝ → X × St)
    (inc : ℕ → X → ℝ) (L : ℕ) : ∀ (n k : ℕ) (s : St) (h : List X) (x : X), h.length = k → k + n = L →
      pathExpect p step (fun path => ∏ j ∈ range L, inc j (path.getD j default)) n k s h x =
        (∏ j ∈ range k, inc j (h.getD j default)) * aisVal p step inc n k s x := by
  intro n
  induction n with
  | zero =>
    intro k s h x hk hL
    rw [pathExpect, aisVal, mul_one, ← hL, add_zero]
    refine prod_congr rfl fun j hj => ?_
    rw [getD_append_lt h x (by rw [hk]; exact mem_range.1 hj)]
  | succ n ih =>
    intro k s h x hk hL
    have hp : ∏ j ∈ range (k + 1), inc j ((h ++ [x]).getD j default) =
        (∏ j ∈ range k, inc j (h.getD j default)) * inc k x := by
      rw [prod_range_succ]
      congr 1
      · refine prod_congr rfl fun j hj => ?_
        rw [getD_append_lt h x (by rw [hk]; exact mem_range.1 hj)]
      · rw [List.getD_eq_getElem?_getD, List.getElem?_append_right (by omega), hk]; simp
    rw [pathExpect, aisVal, ← mul_assoc, ← hp, mul_sum]
    refine sum_congr rfl fun ω _ => ?_
    have e : ∀ u, pathExpect p step (fun path => ∏ j ∈ range L, inc j (path.getD j default)) n (k + 1)
        (step k s x ω u).2 (h ++ [x]) (step k s x ω u).1 =
        (∏ j ∈ range (k + 1), inc j ((h ++ [x]).getD j default)) *
          aisVal p step inc n (k + 1) (step k s x ω u).2 (step k s x ω u).1 :=
      fun u => ih (k + 1) _ (h ++ [x]) _ (by simp [hk]) (by omega)
    simp only [e]
    rw [integral_const_mul]
    ring

/-- What the experiment reports for a batch of one chain (exponential of the last entry). -/
noncomputable def aisEstimate [Inhabited X] (score : ℝ → X → ℝ) (L : ℕ) (path : List X) : ℝ :=
  Real.exp ((aisLoop score L (fun k (_ : Fin 1) => path.getD k default) L).logZ.getD (L - 1) 0)

theorem pathMean_ais [Inhabited X] (S : Finset X) (score : ℝ → X → ℝ) {L : ℕ} (hL : 0 < L)
    (p : ℕ → ∀ s, X → Ω s → ℝ) (step : ℕ → ∀ s, X → Ω s → ℝ → X × St) (s₀ : St) :
    pathMean S (score 0) p step (aisEstimate score L) L s₀ =
      (∑ x ∈ S, Real.exp (score 0 x) * aisVal p step (fun k x =>
        Real.exp (score ((k + 1 : ℕ) / (L : ℝ)) x - score ((k : ℕ) / (L : ℝ)) x)) L 0 s₀ x) /
        ∑ x ∈ S, Real.exp (score 0 x) := by
  have e : aisEstimate score L = fun path : List X => ∏ k ∈ range L,
      Real.exp (score ((k + 1 : ℕ) / (L : ℝ)) (path.getD k default) -
        score ((k : ℕ) / (L : ℝ)) (path.getD k default)) := by
    funext path
    exact aisLoop_one score hL _
  unfold pathMean
  rw [e]
  congr 1
  refine sum_congr rfl fun x _ => ?_
  rw [pathExpect_prod p step (fun k x => Real.exp (score ((k + 1 : ℕ) / (L : ℝ)) x -
    score ((k : ℕ) / (L : ℝ)) x)) L L 0 s₀ [] x rfl (by omega)]
  simp

end Path

/-! ## The two-number process with weights -/

/-- Expected weight of the two-number process over `n` steps from step `k`. -/
def siteAIS {R : Type*} (w : ℝ) (b c : ℕ → ℝ) (P : R → ℝ) (next : R → ℝ → R) : ℕ → ℕ → R → Bool → ℝ
  | 0, _, _, _ => 1
  | n + 1, k, r, v => (if v then 1 else w) *
      siteStep (w ^ (k + 1)) (b k) (c k) P next (siteAIS w b c P next n (k + 1)) r v

variable {R : Type*} {w : ℝ} {b c : ℕ → ℝ} {P : R → ℝ} {next : R → ℝ → R}

theorem siteAIS_true (n k : ℕ) (r : R) : siteAIS w b c P next (n + 1) k r true =
    P r * (b k * siteAIS w b c P next n (k + 1) (next r (w ^ (k + 1))) false +
      (1 - b k) * siteAIS w b c P next n (k + 1) (next r (w ^ (k + 1))) true) +
      (1 - P r) * siteAIS w b c P next n (k + 1) (next r 1) true := by
  simp only [siteAIS, if_true, one_mul, siteStep]

theorem siteAIS_false (n k : ℕ) (r : R) : siteAIS w b c P next (n + 1) k r false =
    w * (P r * (c k * siteAIS w b c P next n (k + 1) (next r 1) true +
      (1 - c k) * siteAIS w b c P next n (k + 1) (next r 1) false) +
      (1 - P r) * siteAIS w b c P next n (k + 1) (next r 1) false) := by
  simp only [siteAIS, Bool.false_eq_true, if_false, siteStep]

/-- A convex combination of convex combinations. -/
theorem mix_mem {P b A B C : ℝ} (hP : 0 ≤ P ∧ P ≤ 1) (hb : 0 ≤ b ∧ b ≤ 1) (hA : 0 ≤ A ∧ A ≤ 1)
    (hB : 0 ≤ B ∧ B ≤ 1) (hC : 0 ≤ C ∧ C ≤ 1) :
    0 ≤ P * (b * A + (1 - b) * B) + (1 - P) * C ∧ P * (b * A + (1 - b) * B) + (1 - P) * C ≤ 1 := by
  obtain ⟨p0, p1⟩ := hP
  obtain ⟨b0, b1⟩ := hb
  have hm : 0 ≤ b * A + (1 - b) * B ∧ b * A + (1 - b) * B ≤ 1 := by
    constructor
    · have := mul_nonneg b0 hA.1
      have := mul_nonneg (sub_nonneg.2 b1) hB.1
      linarith
    · have := mul_le_mul_of_nonneg_left hA.2 b0
      have := mul_le_mul_of_nonneg_left hB.2 (sub_nonneg.2 b1)
      linarith
  constructor
  · have := mul_nonneg p0 hm.1
    have := mul_nonneg (sub_nonneg.2 p1) hC.1
    linarith
  · have := mul_le_mul_of_nonneg_left hm.2 p0
    have := mul_le_mul_of_nonneg_left hC.2 (sub_nonneg.2 p1)
    linarith

/-- Two convex combinations with nearby coefficients. -/
theorem mix_close {P b b' A A' B B' C C' τ e : ℝ} (hP : 0 ≤ P ∧ P ≤ 1) (hb : 0 ≤ b ∧ b ≤ 1)
    (hA' : 0 ≤ A' ∧ A' ≤ 1) (hB' : 0 ≤ B' ∧ B' ≤ 1) (hbb : |b - b'| ≤ τ) (hA : |A - A'| ≤ e)
    (hB : |B - B'| ≤ e) (hC : |C - C'| ≤ e) :
    |P * (b * A + (1 - b) * B) + (1 - P) * C - (P * (b' * A' + (1 - b') * B') + (1 - P) * C')| ≤ τ + e := by
  obtain ⟨p0, p1⟩ := hP
  obtain ⟨b0, b1⟩ := hb
  have he : 0 ≤ e := le_trans (abs_nonneg _) hA
  have hτ : 0 ≤ τ := le_trans (abs_nonneg _) hbb
  have e1 : P * (b * A + (1 - b) * B) + (1 - P) * C - (P * (b' * A' + (1 - b') * B') + (1 - P) * C') =
      P * (b * (A - A') + (1 - b) * (B - B')) + (1 - P) * (C - C') + P * ((b - b') * (A' - B')) := by ring
  have hAB : |A' - B'| ≤ 1 := by
    rw [abs_le]; constructor <;> linarith [hA'.1, hA'.2, hB'.1, hB'.2]
  have h3 : |P * ((b - b') * (A' - B'))| ≤ τ := by
    rw [abs_mul, abs_mul, abs_of_nonneg p0]
    calc P * (|b - b'| * |A' - B'|) ≤ 1 * (τ * 1) :=
          mul_le_mul p1 (mul_le_mul hbb hAB (abs_nonneg _) hτ) (by positivity) zero_le_one
      _ = τ := by ring
  have h4 : |b * (A - A') + (1 - b) * (B - B')| ≤ e := by
    refine (abs_add_le _ _).trans ?_
    rw [abs_mul, abs_mul, abs_of_nonneg b0, abs_of_nonneg (sub_nonneg.2 b1)]
    have := mul_le_mul_of_nonneg_left hA b0
    have := mul_le_mul_of_nonneg_left hB (sub_nonneg.2 b1)
    linarith
  have h5 : |P * (b * (A - A') + (1 - b) * (B - B')) + (1 - P) * (C - C')| ≤ e := by
    refine (abs_add_le _ _).trans ?_
    rw [abs_mul, abs_mul, abs_of_nonneg p0, abs_of_nonneg (sub_nonneg.2 p1)]
    have := mul_le_mul_of_nonneg_left h4 p0
    have := mul_le_mul_of_nonneg_left hC (sub_nonneg.2 p1)
    linarith
  rw [e1]
  exact (abs_add_le _ _).trans (by linarith)

theorem siteAIS_mem (hw0 : 0 ≤ w) (hw1 : w ≤ 1) (hb : ∀ k, 0 ≤ b k ∧ b k ≤ 1) (hc : ∀ k, 0 ≤ c k ∧ c k ≤ 1)
    (hP : ∀ r, 0 ≤ P r ∧ P r ≤ 1) : ∀ (n k : ℕ) (r : R) (v : Bool),
      0 ≤ siteAIS w b c P next n k r v ∧ siteAIS w b c P next n k r v ≤ 1 := by
  intro n
  induction n with
  | zero => intro k r v; simp [siteAIS]
  | succ n ih =>
    intro k r v
    cases v
    · rw [siteAIS_false]
      obtain ⟨h1, h2⟩ := mix_mem (hP r) (hc k) (ih (k + 1) (next r 1) true) (ih (k + 1) (next r 1) false)
        (ih (k + 1) (next r 1) false)
      exact ⟨mul_nonneg hw0 h1, mul_le_one₀ hw1 h1 h2⟩
    · rw [siteAIS_true]
      exact mix_mem (hP r) (hb k) (ih _ _ _) (ih _ _ _) (ih _ _ _)

theorem siteAIS_false_le (hw0 : 0 ≤ w) (hw1 : w ≤ 1) (hb : ∀ k, 0 ≤ b k ∧ b k ≤ 1)
    (hc : ∀ k, 0 ≤ c k ∧ c k ≤ 1) (hP : ∀ r, 0 ≤ P r ∧ P r ≤ 1) (n k : ℕ) (r : R) :
    siteAIS w b c P next (n + 1) k r false ≤ w := by
  rw [siteAIS_false]
  obtain ⟨h1, h2⟩ := mix_mem (hP r) (hc k) (siteAIS_mem (next := next) hw0 hw1 hb hc hP n (k + 1) (next r 1) true)
    (siteAIS_mem (next := next) hw0 hw1 hb hc hP n (k + 1) (next r 1) false)
    (siteAIS_mem (next := next) hw0 hw1 hb hc hP n (k + 1) (next r 1) false)
  exact mul_le_of_le_one_right hw0 h2

/-- Another temperature step does not raise the expected weight: the weights only fall. -/
theorem siteAIS_succ_le (hw0 : 0 ≤ w) (hw1 : w ≤ 1) (hb : ∀ k, 0 ≤ b k ∧ b k ≤ 1)
    (hc : ∀ k, 0 ≤ c k ∧ c k ≤ 1) (hP : ∀ r, 0 ≤ P r ∧ P r ≤ 1) : ∀ (n k : ℕ) (r : R) (v : Bool),
      siteAIS w b c P next (n + 1) k r v ≤ siteAIS w b c P next n k r v := by
  intro n
  induction n with
  | zero => intro k r v; exact (siteAIS_mem hw0 hw1 hb hc hP 1 k r v).2
  | succ n ih =>
    intro k r v
    have mono : ∀ {P b A A' B B' C C' : ℝ}, 0 ≤ P ∧ P ≤ 1 → 0 ≤ b ∧ b ≤ 1 → A ≤ A' → B ≤ B' → C ≤ C' →
        P * (b * A + (1 - b) * B) + (1 - P) * C ≤ P * (b * A' + (1 - b) * B') + (1 - P) * C' := by
      intro P b A A' B B' C C' hP hb hA hB hC
      have h1 := mul_le_mul_of_nonneg_left hA hb.1
      have h2 := mul_le_mul_of_nonneg_left hB (sub_nonneg.2 hb.2)
      have h3 := mul_le_mul_of_nonneg_left (add_le_add h1 h2) hP.1
      have h4 := mul_le_mul_of_nonneg_left hC (sub_nonneg.2 hP.2)
      linarith
    cases v
    · rw [siteAIS_false (n + 1) k r, siteAIS_false n k r]
      exact mul_le_mul_of_nonneg_left (mono (hP r) (hc k) (ih _ _ _) (ih _ _ _) (ih _ _ _)) hw0
    · rw [siteAIS_true (n + 1) k r, siteAIS_true n k r]
      exact mono (hP r) (hb k) (ih _ _ _) (ih _ _ _) (ih _ _ _)

theorem siteAIS_anti (hw0 : 0 ≤ w) (hw1 : w ≤ 1) (hb : ∀ k, 0 ≤ b k ∧ b k ≤ 1)
    (hc : ∀ k, 0 ≤ c k ∧ c k ≤ 1) (hP : ∀ r, 0 ≤ P r ∧ P r ≤ 1) {m n : ℕ} (h : m ≤ n) (k : ℕ) (r : R) (v : Bool) :
    siteAIS w b c P next n k r v ≤ siteAIS w b c P next m k r v := by
  induction h with
  | refl => exact le_rfl
  | step _ ih => exact (siteAIS_succ_le hw0 hw1 hb hc hP _ k r v).trans ih

/-- The offset of the acceptance test changes the expected weight by no more than itself per step. -/
theorem siteAIS_close {b' c' : ℕ → ℝ} {τ : ℝ} (hw0 : 0 ≤ w) (hw1 : w ≤ 1) (hb : ∀ k, 0 ≤ b k ∧ b k ≤ 1)
    (hc : ∀ k, 0 ≤ c k ∧ c k ≤ 1) (hb' : ∀ k, 0 ≤ b' k ∧ b' k ≤ 1) (hc' : ∀ k, 0 ≤ c' k ∧ c' k ≤ 1)
    (hP : ∀ r, 0 ≤ P r ∧ P r ≤ 1) (hbb : ∀ k, |b k - b' k| ≤ τ) (hcc : ∀ k, |c k - c' k| ≤ τ) :
    ∀ (n k : ℕ) (r : R) (v : Bool),
      |siteAIS w b c P next n k r v - siteAIS w b' c' P next n k r v| ≤ n * τ := by
  intro n
  induction n with
  | zero => intro k r v; simp [siteAIS]
  | succ n ih =>
    intro k r v
    have hm := siteAIS_mem (next := next) hw0 hw1 hb' hc' hP n (k + 1)
    have e : ((n + 1 : ℕ) : ℝ) * τ = τ + n * τ := by push_cast; ring
    rw [e]
    cases v
    · rw [siteAIS_false, siteAIS_false, ← mul_sub, abs_mul, abs_of_nonneg hw0]
      refine le_trans (mul_le_of_le_one_left (abs_nonneg _) hw1) ?_
      exact mix_close (hP r) (hc k) (hm _ _) (hm _ _) (hcc k) (ih _ _ _) (ih _ _ _) (ih _ _ _)
    · rw [siteAIS_true, siteAIS_true]
      exact mix_close (hP r) (hb k) (hm _ _) (hm _ _) (hbb k) (ih _ _ _) (ih _ _ _) (ih _ _ _)

/-- Only the numbers that a run reaches matter. -/
theorem siteAIS_congr {P' : R → ℝ} {Good : R → Prop} (hg : ∀ r a, Good (next r a)) (hP : ∀ r, Good r → P r = P' r) :
    ∀ (n k : ℕ) (r : R) (v : Bool), Good r → siteAIS w b c P next n k r v = siteAIS w b c P' next n k r v := by
  intro n
  induction n with
  | zero => intro k r v _; rfl
  | succ n ih =>
    intro k r v hr
    cases v
    · rw [siteAIS_false, siteAIS_false, hP r hr, ih _ _ _ (hg _ _), ih _ _ _ (hg _ _)]
    · rw [siteAIS_true, siteAIS_true, hP r hr, ih _ _ _ (hg _ _), ih _ _ _ (hg _ _), ih _ _ _ (hg _ _)]

/-! ## Ideal acceptance test -/

/-- With the ideal acceptance test. -/
def siteIdeal {R : Type*} (w : ℝ) (P : R → ℝ) (next : R → ℝ → R) : ℕ → ℕ → R → Bool → ℝ :=
  siteAIS w (fun k => w ^ (k + 1)) (fun _ => 1) P next

section Ideal

variable (hw0 : 0 ≤ w) (hw : w ≤ 1 / 2) (hP : ∀ r, 0 ≤ P r ∧ P r ≤ 1)

include hw0 hw

theorem pow_mem_unit (k : ℕ) : 0 ≤ w ^ k ∧ w ^ k ≤ 1 := ⟨pow_nonneg hw0 k, pow_le_one₀ hw0 (by linarith)⟩

include hP

theorem siteIdeal_mem (n k : ℕ) (r : R) (v : Bool) :
    0 ≤ siteIdeal w P next n k r v ∧ siteIdeal w P next n k r v ≤ 1 :=
  siteAIS_mem hw0 (by linarith) (fun k => pow_mem_unit hw0 hw (k + 1)) (fun _ => ⟨zero_le_one, le_rfl⟩) hP n k r v

theorem siteIdeal_false_le (n k : ℕ) (r : R) : siteIdeal w P next (n + 1) k r false ≤ w :=
  siteAIS_false_le hw0 (by linarith) (fun k => pow_mem_unit hw0 hw (k + 1)) (fun _ => ⟨zero_le_one, le_rfl⟩) hP n k r

omit hw0 hw hP in
theorem siteIdeal_true (n k : ℕ) (r : R) : siteIdeal w P next (n + 1) k r true =
    P r * (w ^ (k + 1) * siteIdeal w P next n (k + 1) (next r (w ^ (k + 1))) false +
      (1 - w ^ (k + 1)) * siteIdeal w P next n (k + 1) (next r (w ^ (k + 1))) true) +
      (1 - P r) * siteIdeal w P next n (k + 1) (next r 1) true := siteAIS_true n k r

omit hw0 hw hP in
theorem siteIdeal_false (n k : ℕ) (r : R) : siteIdeal w P next (n + 1) k r false =
    w * (P r * siteIdeal w P next n (k + 1) (next r 1) true +
      (1 - P r) * siteIdeal w P next n (k + 1) (next r 1) false) := by
  unfold siteIdeal; rw [siteAIS_false]; ring

/-- The likelier value is seldom left. -/
theorem siteIdeal_true_ge : ∀ (n k : ℕ) (r : R), 1 - 2 * w ^ (k + 1) ≤ siteIdeal w P next n k r true := by
  intro n
  induction n with
  | zero =>
    intro k r
    have := (pow_mem_unit hw0 hw (k + 1)).1
    simp only [siteIdeal, siteAIS]; linarith
  | succ n ih =>
    intro k r
    rw [siteIdeal_true]
    obtain ⟨p0, p1⟩ := hP r
    obtain ⟨a0, a1⟩ := pow_mem_unit hw0 hw (k + 1)
    have h1 := ih (k + 1) (next r (w ^ (k + 1)))
    have h2 := ih (k + 1) (next r 1)
    have h3 := (siteIdeal_mem (next := next) hw0 hw hP n (k + 1) (next r (w ^ (k + 1))) false).1
    have hs : w ^ (k + 1 + 1) ≤ w ^ (k + 1) * (1 / 2) := by
      rw [pow_succ]; exact mul_le_mul_of_nonneg_left hw a0
    set a := w ^ (k + 1)
    set F := siteIdeal w P next n (k + 1) (next r a) false
    set T := siteIdeal w P next n (k + 1) (next r a) true
    set T' := siteIdeal w P next n (k + 1) (next r 1) true
    have e1 : (1 - a) * (1 - a) ≤ (1 - a) * T := mul_le_mul_of_nonneg_left (by linarith) (by linarith)
    have e2 : 0 ≤ a * F := mul_nonneg a0 h3
    have e3 : 1 - 2 * a ≤ a * F + (1 - a) * T := by nlinarith
    have e4 : P r * (1 - 2 * a) ≤ P r * (a * F + (1 - a) * T) := mul_le_mul_of_nonneg_left e3 p0
    have e5 : (1 - P r) * (1 - 2 * a) ≤ (1 - P r) * T' :=
      mul_le_mul_of_nonneg_left (by linarith) (sub_nonneg.2 p1)
    nlinarith

/-- More precisely. -/
theorem siteIdeal_true_ge' (n k : ℕ) (r : R) :
    1 - P r * w ^ (k + 1) - 2 * w ^ (k + 2) ≤ siteIdeal w P next (n + 1) k r true := by
  rw [siteIdeal_true]
  obtain ⟨p0, p1⟩ := hP r
  obtain ⟨a0, a1⟩ := pow_mem_unit hw0 hw (k + 1)
  obtain ⟨d0, d1⟩ := pow_mem_unit hw0 hw (k + 2)
  have h1 := siteIdeal_true_ge (next := next) hw0 hw hP n (k + 1) (next r (w ^ (k + 1)))
  have h2 := siteIdeal_true_ge (next := next) hw0 hw hP n (k + 1) (next r 1)
  have h3 := (siteIdeal_mem (next := next) hw0 hw hP n (k + 1) (next r (w ^ (k + 1))) false).1
  rw [show k + 1 + 1 = k + 2 from rfl] at h1 h2
  set a := w ^ (k + 1)
  set d := w ^ (k + 2)
  set F := siteIdeal w P next n (k + 1) (next r a) false
  set T := siteIdeal w P next n (k + 1) (next r a) true
  set T' := siteIdeal w P next n (k + 1) (next r 1) true
  have e1 : (1 - a) * (1 - 2 * d) ≤ (1 - a) * T := mul_le_mul_of_nonneg_left h1 (by linarith)
  have e2 : 0 ≤ a * F := mul_nonneg a0 h3
  have e3 : 1 - a - 2 * d ≤ a * F + (1 - a) * T := by nlinarith
  have e4 : P r * (1 - a - 2 * d) ≤ P r * (a * F + (1 - a) * T) := mul_le_mul_of_nonneg_left e3 p0
  have e5 : (1 - P r) * (1 - 2 * d) ≤ (1 - P r) * T' := mul_le_mul_of_nonneg_left h2 (sub_nonneg.2 p1)
  linarith

theorem siteIdeal_true_le (n k : ℕ) (r : R) :
    siteIdeal w P next (n + 2) k r true ≤ 1 - P r * w ^ (k + 1) * (1 - w) := by
  rw [siteIdeal_true]
  obtain ⟨p0, p1⟩ := hP r
  obtain ⟨a0, a1⟩ := pow_mem_unit hw0 hw (k + 1)
  have h1 := (siteIdeal_mem (next := next) hw0 hw hP (n + 1) (k + 1) (next r (w ^ (k + 1))) true).2
  have h2 := (siteIdeal_mem (next := next) hw0 hw hP (n + 1) (k + 1) (next r 1) true).2
  have h3 := siteIdeal_false_le (next := next) hw0 hw hP n (k + 1) (next r (w ^ (k + 1)))
  set a := w ^ (k + 1)
  have e1 := mul_le_mul_of_nonneg_left h1 (sub_nonneg.2 a1)
  have e2 := mul_le_mul_of_nonneg_left h3 a0
  have e4 := mul_le_mul_of_nonneg_left (add_le_add e2 e1) p0
  have e5 := mul_le_mul_of_nonneg_left h2 (sub_nonneg.2 p1)
  linarith

omit hw0 hw hP in
/-- Weight of a chain started from the model of step `k`. -/
theorem siteIdeal_start (n k : ℕ) (r : R) :
    siteIdeal w P next (n + 1) k r true + w ^ k * siteIdeal w P next (n + 1) k r false =
      P r * (siteIdeal w P next n (k + 1) (next r (w ^ (k + 1))) true +
        w ^ (k + 1) * siteIdeal w P next n (k + 1) (next r (w ^ (k + 1))) false) +
      (1 - P r) * (siteIdeal w P next n (k + 1) (next r 1) true +
        w ^ (k + 1) * siteIdeal w P next n (k + 1) (next r 1) false) +
      w ^ (k + 1) * P r * (siteIdeal w P next n (k + 1) (next r 1) true -
        siteIdeal w P next n (k + 1) (next r (w ^ (k + 1))) true) := by
  rw [siteIdeal_true, siteIdeal_false, pow_succ]; ring

/-- It exceeds the right one by little. -/
theorem siteIdeal_start_le : ∀ (n k : ℕ) (r : R),
    siteIdeal w P next n k r true + w ^ k * siteIdeal w P next n k r false ≤
      1 + w ^ (k + n) + 4 * w ^ (2 * k + 3) := by
  intro n
  induction n with
  | zero =>
    intro k r
    have := (pow_mem_unit hw0 hw (2 * k + 3)).1
    simp only [siteIdeal, siteAIS, add_zero]; linarith
  | succ n ih =>
    intro k r
    rw [siteIdeal_start]
    obtain ⟨p0, p1⟩ := hP r
    obtain ⟨a0, a1⟩ := pow_mem_unit hw0 hw (k + 1)
    have h1 := ih (k + 1) (next r (w ^ (k + 1)))
    have h2 := ih (k + 1) (next r 1)
    have h3 := (siteIdeal_mem (next := next) hw0 hw hP n (k + 1) (next r 1) true).2
    have h4 := siteIdeal_true_ge (next := next) hw0 hw hP n (k + 1) (next r (w ^ (k + 1)))
    have e1 := mul_le_mul_of_nonneg_left h1 p0
    have e2 := mul_le_mul_of_nonneg_left h2 (sub_nonneg.2 p1)
    have e3 : w ^ (k + 1) * P r * (siteIdeal w P next n (k + 1) (next r 1) true -
        siteIdeal w P next n (k + 1) (next r (w ^ (k + 1))) true) ≤ w ^ (k + 1) * 1 * (2 * w ^ (k + 2)) := by
      have hx : w ^ (k + 1) * P r ≤ w ^ (k + 1) * 1 := mul_le_mul_of_nonneg_left p1 a0
      calc _ ≤ w ^ (k + 1) * P r * (2 * w ^ (k + 2)) :=
            mul_le_mul_of_nonneg_left (by linarith) (mul_nonneg a0 p0)
        _ ≤ _ := mul_le_mul_of_nonneg_right hx (by have := (pow_mem_unit hw0 hw (k + 2)).1; linarith)
    have e4 : w ^ (k + 1) * 1 * (2 * w ^ (k + 2)) = 2 * w ^ (2 * k + 3) := by ring
    have e5 : 4 * w ^ (2 * (k + 1) + 3) ≤ 2 * w ^ (2 * k + 3) := by
      have : w ^ (2 * (k + 1) + 3) = w ^ (2 * k + 3) * (w * w) := by ring
      rw [this]
      have h2 : w * w ≤ 1 / 4 := by nlinarith
      have hW := (pow_mem_unit hw0 hw (2 * k + 3)).1
      have := mul_le_mul_of_nonneg_left h2 hW
      linarith
    have e6 : w ^ (k + 1 + n) = w ^ (k + (n + 1)) := by congr 1; omega
    rw [e6] at e1 e2
    linarith

theorem siteIdeal_start_le' (n k : ℕ) (r : R) :
    siteIdeal w P next (n + 1) k r true + w ^ k * siteIdeal w P next (n + 1) k r false ≤
      1 + w ^ (k + (n + 1)) + 2 * P r * w ^ (2 * k + 3) + 4 * w ^ (2 * k + 5) := by
  rw [siteIdeal_start]
  obtain ⟨p0, p1⟩ := hP r
  have h1 := siteIdeal_start_le (next := next) hw0 hw hP n (k + 1) (next r (w ^ (k + 1)))
  have h2 := siteIdeal_start_le (next := next) hw0 hw hP n (k + 1) (next r 1)
  have h3 := (siteIdeal_mem (next := next) hw0 hw hP n (k + 1) (next r 1) true).2
  have h4 := siteIdeal_true_ge (next := next) hw0 hw hP n (k + 1) (next r (w ^ (k + 1)))
  have e1 := mul_le_mul_of_nonneg_left h1 p0
  have e2 := mul_le_mul_of_nonneg_left h2 (sub_nonneg.2 p1)
  have e3 : w ^ (k + 1) * P r * (siteIdeal w P next n (k + 1) (next r 1) true -
      siteIdeal w P next n (k + 1) (next r (w ^ (k + 1))) true) ≤ w ^ (k + 1) * P r * (2 * w ^ (k + 2)) :=
    mul_le_mul_of_nonneg_left (by linarith) (mul_nonneg (pow_mem_unit hw0 hw (k + 1)).1 p0)
  have e4 : w ^ (k + 1) * P r * (2 * w ^ (k + 2)) = 2 * P r * w ^ (2 * k + 3) := by ring
  have e6 : w ^ (k + 1 + n) = w ^ (k + (n + 1)) := by congr 1; omega
  have e7 : w ^ (2 * (k + 1) + 3) = w ^ (2 * k + 5) := by congr 1
  rw [e6, e7] at e1 e2
  linarith

/-- The number that the sampler adapts decides the flip probability of the second step: the weight is too small
when an accepted step raises it. -/
theorem siteIdeal_two (n : ℕ) (r : R) :
    siteIdeal w P next (n + 3) 0 r true + siteIdeal w P next (n + 3) 0 r false ≤
      1 + w ^ (n + 3) - w ^ 3 * P r * (P (next r 1) - P (next r w)) + 3 * P r * w ^ 4 + 4 * w ^ 5 := by
  have h := siteIdeal_start (w := w) (P := P) (next := next) (n + 2) 0 r
  simp only [pow_zero, one_mul, zero_add, pow_one] at h
  rw [h]
  obtain ⟨p0, p1⟩ := hP r
  have h1 := siteIdeal_start_le (next := next) hw0 hw hP (n + 2) 1 (next r w)
  have h2 := siteIdeal_start_le (next := next) hw0 hw hP (n + 2) 1 (next r 1)
  have h3 := siteIdeal_true_le (next := next) hw0 hw hP n 1 (next r 1)
  have h4 := siteIdeal_true_ge' (next := next) hw0 hw hP (n + 1) 1 (next r w)
  obtain ⟨q0, q1⟩ := hP (next r 1)
  rw [pow_one] at h1 h2
  have e6 : w ^ (1 + (n + 2)) = w ^ (n + 3) := by congr 1; omega
  rw [e6] at h1 h2
  have e1 := mul_le_mul_of_nonneg_left h1 p0
  have e2 := mul_le_mul_of_nonneg_left h2 (sub_nonneg.2 p1)
  have w3 := (pow_mem_unit hw0 hw 3).1
  have e3 : siteIdeal w P next (n + 2) 1 (next r 1) true - siteIdeal w P next (n + 2) 1 (next r w) true ≤
      - w ^ 2 * (P (next r 1) - P (next r w)) + 3 * w ^ 3 := by
    have : P (next r 1) * w ^ 3 ≤ 1 * w ^ 3 := mul_le_mul_of_nonneg_right q1 w3
    simp only [show 1 + 1 = 2 from rfl, show 1 + 2 = 3 from rfl] at h3 h4
    have a : P (next r 1) * w ^ 2 * (1 - w) = P (next r 1) * w ^ 2 - P (next r 1) * w ^ 3 := by ring
    rw [a] at h3
    linarith
  have e4 := mul_le_mul_of_nonneg_left e3 (mul_nonneg hw0 p0)
  have e5 : w * P r * (-w ^ 2 * (P (next r 1) - P (next r w)) + 3 * w ^ 3) =
      - (w ^ 3 * P r * (P (next r 1) - P (next r w))) + 3 * P r * w ^ 4 := by ring
  rw [e5] at e4
  norm_num at e1 e2 ⊢
  linarith

omit hP in
theorem three_combine {p q A B C E F G : ℝ} (hp : 0 ≤ p ∧ p ≤ 1) (hq : 0 ≤ q ∧ q ≤ 1)
    (t1 : A ≤ 1 - q * w ^ 3 * (1 - w)) (t2 : 1 - p * w ^ 3 - 2 * w ^ 4 ≤ B) (t3 : C ≤ 1 - p * w ^ 3 * (1 - w))
    (t4 : 1 - p * w ^ 3 - 2 * w ^ 4 ≤ E) (f1 : F ≤ w * (p + w)) (f2 : w * p - 2 * w ^ 5 ≤ G) :
    p * (w ^ 2 * F + (1 - w ^ 2) * C) + (1 - p) * A - (p * (w ^ 2 * G + (1 - w ^ 2) * E) + (1 - p) * B) ≤
      - w ^ 3 * (1 - p) * (q - p) + 5 * w ^ 4 := by
  obtain ⟨p0, p1⟩ := hp
  obtain ⟨q0, q1⟩ := hq
  have w4 := pow_mem_unit hw0 hw 4
  have w2 := pow_mem_unit hw0 hw 2
  have u1 : A - B ≤ - (q - p) * w ^ 3 + 3 * w ^ 4 := by
    have : q * w ^ 4 ≤ w ^ 4 := mul_le_of_le_one_left w4.1 q1
    have e : q * w ^ 3 * (1 - w) = q * w ^ 3 - q * w ^ 4 := by ring
    rw [e] at t1
    linarith
  have u2 : C - E ≤ 3 * w ^ 4 := by
    have : p * w ^ 4 ≤ w ^ 4 := mul_le_of_le_one_left w4.1 p1
    have e : p * w ^ 3 * (1 - w) = p * w ^ 3 - p * w ^ 4 := by ring
    rw [e] at t3
    linarith
  have u3 : w ^ 2 * (F - G) ≤ 2 * w ^ 4 := by
    have x2 : w ^ 5 ≤ w ^ 2 * (1 / 8) := by
      have : w ^ 5 = w ^ 2 * w ^ 3 := by ring
      rw [this]
      refine mul_le_mul_of_nonneg_left ?_ w2.1
      calc w ^ 3 ≤ (1 / 2) ^ 3 := pow_le_pow_left₀ hw0 hw 3
        _ = 1 / 8 := by norm_num
    have x0 : w * (p + w) = w * p + w ^ 2 := by ring
    rw [x0] at f1
    have x3 : F - G ≤ 2 * w ^ 2 := by linarith [w2.1]
    have := mul_le_mul_of_nonneg_left x3 w2.1
    calc _ ≤ _ := this
      _ = 2 * w ^ 4 := by ring
  have u4 : (1 - w ^ 2) * (C - E) ≤ 3 * w ^ 4 := by
    have y : (1 - w ^ 2) * (C - E) ≤ (1 - w ^ 2) * (3 * w ^ 4) :=
      mul_le_mul_of_nonneg_left u2 (by linarith [w2.2])
    have z := mul_nonneg w2.1 w4.1
    linarith
  have u5 : p * (w ^ 2 * (F - G) + (1 - w ^ 2) * (C - E)) ≤ p * (5 * w ^ 4) :=
    mul_le_mul_of_nonneg_left (by linarith) p0
  have u6 := mul_le_mul_of_nonneg_left u1 (sub_nonneg.2 p1)
  have u7 := mul_nonneg (sub_nonneg.2 p1) w4.1
  linarith

/-- The same for a sampler whose number of flips changes with the third step, after two steps of acceptance
ratio one. -/
theorem siteIdeal_three (n : ℕ) {r : R} {p q : ℝ} (h0 : P r = p) (h1 : P (next r 1) = p) (h2 : P (next r w) = p)
    (h11 : P (next (next r 1) 1) = q) (h12 : P (next (next r 1) (w ^ 2)) = p)
    (h21 : P (next (next r w) 1) = p) (h22 : P (next (next r w) (w ^ 2)) = p) :
    siteIdeal w P next (n + 4) 0 r true + siteIdeal w P next (n + 4) 0 r false ≤
      1 + w ^ (n + 4) - w ^ 4 * p * (1 - p) * (q - p) + 7 * p * w ^ 5 + 4 * w ^ 7 := by
  have h := siteIdeal_start (w := w) (P := P) (next := next) (n + 3) 0 r
  simp only [pow_zero, one_mul, zero_add, pow_one] at h
  rw [h, h0]
  have hp : 0 ≤ p ∧ p ≤ 1 := h0 ▸ hP r
  have hq : 0 ≤ q ∧ q ≤ 1 := h11 ▸ hP _
  obtain ⟨p0, p1⟩ := hp
  obtain ⟨q0, q1⟩ := hq
  have a1 := siteIdeal_start_le' (next := next) hw0 hw hP (n + 2) 1 (next r w)
  have a2 := siteIdeal_start_le' (next := next) hw0 hw hP (n + 2) 1 (next r 1)
  rw [pow_one] at a1 a2
  have e6 : w ^ (1 + (n + 2 + 1)) = w ^ (n + 4) := by congr 1; omega
  rw [e6, h2] at a1
  rw [e6, h1] at a2
  have b1 := mul_le_mul_of_nonneg_left a1 p0
  have b2 := mul_le_mul_of_nonneg_left a2 (sub_nonneg.2 p1)
  have w4 := pow_mem_unit hw0 hw 4
  have w3 := pow_mem_unit hw0 hw 3
  have w2 := pow_mem_unit hw0 hw 2
  have key : siteIdeal w P next (n + 3) 1 (next r 1) true - siteIdeal w P next (n + 3) 1 (next r w) true ≤
      - w ^ 3 * (1 - p) * (q - p) + 5 * w ^ 4 := by
    rw [siteIdeal_true (n + 2) 1 (next r 1), siteIdeal_true (n + 2) 1 (next r w), h1, h2]
    simp only [show 1 + 1 = 2 from rfl]
    have t1 := siteIdeal_true_le (next := next) hw0 hw hP n 2 (next (next r 1) 1)
    have t2 := siteIdeal_true_ge' (next := next) hw0 hw hP (n + 1) 2 (next (next r w) 1)
    have t3 := siteIdeal_true_le (next := next) hw0 hw hP n 2 (next (next r 1) (w ^ 2))
    have t4 := siteIdeal_true_ge' (next := next) hw0 hw hP (n + 1) 2 (next (next r w) (w ^ 2))
    rw [h11] at t1
    rw [h21] at t2
    rw [h12] at t3
    rw [h22] at t4
    have f1 : siteIdeal w P next (n + 2) 2 (next (next r 1) (w ^ 2)) false ≤ w * (p + w) := by
      rw [siteIdeal_false, h12]
      have g1 := (siteIdeal_mem (next := next) hw0 hw hP (n + 1) 3 (next (next (next r 1) (w ^ 2)) 1) true).2
      have g2 := siteIdeal_false_le (next := next) hw0 hw hP n 3 (next (next (next r 1) (w ^ 2)) 1)
      have g3 := mul_le_mul_of_nonneg_left g1 p0
      have g4 := mul_le_mul_of_nonneg_left g2 (sub_nonneg.2 p1)
      have g5 := mul_nonneg p0 hw0
      refine mul_le_mul_of_nonneg_left ?_ hw0
      linarith
    have f2 : w * p - 2 * w ^ 5 ≤ siteIdeal w P next (n + 2) 2 (next (next r w) (w ^ 2)) false := by
      rw [siteIdeal_false, h22]
      have g1 := siteIdeal_true_ge (next := next) hw0 hw hP (n + 1) 3 (next (next (next r w) (w ^ 2)) 1)
      have g2 := (siteIdeal_mem (next := next) hw0 hw hP (n + 1) 3 (next (next (next r w) (w ^ 2)) 1) false).1
      have g3 := mul_le_mul_of_nonneg_left g1 p0
      have g4 := mul_nonneg (sub_nonneg.2 p1) g2
      have g5 : p * w ^ 4 ≤ w ^ 4 := mul_le_of_le_one_left w4.1 p1
      have g6 := mul_le_mul_of_nonneg_left (add_le_add g3 g4) hw0
      have g7 : w * (p * w ^ 4) ≤ w * w ^ 4 := mul_le_mul_of_nonneg_left g5 hw0
      have g8 : w * w ^ 4 = w ^ 5 := by ring
      have g9 : w * (p * (1 - 2 * w ^ (3 + 1)) + 0) = w * p - 2 * (w * (p * w ^ 4)) := by ring
      rw [g9] at g6
      simp only [show 2 + 1 = 3 from rfl]
      linarith
    simp only [show 2 + 1 = 3 from rfl, show 2 + 2 = 4 from rfl] at t1 t2 t3 t4
    set A := siteIdeal w P next (n + 2) 2 (next (next r 1) 1) true
    set B := siteIdeal w P next (n + 2) 2 (next (next r w) 1) true
    set C := siteIdeal w P next (n + 2) 2 (next (next r 1) (w ^ 2)) true
    set E := siteIdeal w P next (n + 2) 2 (next (next r w) (w ^ 2)) true
    set F := siteIdeal w P next (n + 2) 2 (next (next r 1) (w ^ 2)) false
    set G := siteIdeal w P next (n + 2) 2 (next (next r w) (w ^ 2)) false
    exact three_combine hw0 hw ⟨p0, p1⟩ ⟨q0, q1⟩ t1 t2 t3 t4 f1 f2
  have k2 := mul_le_mul_of_nonneg_left key (mul_nonneg hw0 p0)
  have k4 : w * p * (-w ^ 3 * (1 - p) * (q - p) + 5 * w ^ 4) =
      - (w ^ 4 * p * (1 - p) * (q - p)) + 5 * (p * w ^ 5) := by ring
  rw [k4] at k2
  simp only [show 2 * 1 + 3 = 5 from rfl, show 2 * 1 + 5 = 7 from rfl, show n + 2 + 1 = n + 3 from rfl] at b1 b2
  linarith

end Ideal

/-! ## With the offset of the acceptance test -/

/-- Acceptance probabilities of the two flips at step `k`. -/
noncomputable def accDown (tiny w : ℝ) (k : ℕ) : ℝ := acceptProb tiny (Real.log (w ^ (k + 1)))
noncomputable def accUp (tiny w : ℝ) (k : ℕ) : ℝ := acceptProb tiny (-Real.log (w ^ (k + 1)))

theorem siteAIS_le_ideal {tiny : ℝ} (ht : 0 ≤ tiny) (hw0 : 0 < w) (hw : w ≤ 1 / 2)
    (hP : ∀ r, 0 ≤ P r ∧ P r ≤ 1) {m L : ℕ} (h : m ≤ L) (r : R) :
    siteAIS w (accDown tiny w) (accUp tiny w) P next L 0 r true +
        siteAIS w (accDown tiny w) (accUp tiny w) P next L 0 r false ≤
      siteIdeal w P next m 0 r true + siteIdeal w P next m 0 r false + 2 * m * tiny := by
  have hb : ∀ k, 0 ≤ accDown tiny w k ∧ accDown tiny w k ≤ 1 :=
    fun _ => ⟨acceptProb_nonneg _ _, acceptProb_le_one _ _⟩
  have hc : ∀ k, 0 ≤ accUp tiny w k ∧ accUp tiny w k ≤ 1 :=
    fun _ => ⟨acceptProb_nonneg _ _, acceptProb_le_one _ _⟩
  have hl := fun k : ℕ => acceptProb_log (tiny := tiny) (pow_pos hw0 (k + 1))
    (pow_mem_unit hw0.le hw (k + 1)).2 ht
  have hm := siteAIS_anti (next := next) hw0.le (by linarith) hb hc hP h 0 r
  have hcl := siteAIS_close (next := next) hw0.le (by linarith) hb hc (fun k => pow_mem_unit hw0.le hw (k + 1))
    (fun _ => ⟨zero_le_one, le_rfl⟩) hP (fun k => (hl k).1) (fun k => (hl k).2) m 0 r
  have h1 := (abs_le.1 (hcl true)).2
  have h2 := (abs_le.1 (hcl false)).2
  have h3 := hm true
  have h4 := hm false
  unfold siteIdeal
  linarith

/-- For every number of temperature steps from three on the expected weight is too small. -/
theorem siteAIS_lt_two {tiny : ℝ} (ht : 0 ≤ tiny) (hw0 : 0 < w) (hw : w ≤ 1 / 2)
    (hP : ∀ r, 0 ≤ P r ∧ P r ≤ 1) {r : R}
    (hsmall : 3 * P r * w ^ 4 + 5 * w ^ 5 + 10 * tiny < w ^ 3 * P r * (P (next r 1) - P (next r w)))
    {L : ℕ} (hL : 3 ≤ L) :
    siteAIS w (accDown tiny w) (accUp tiny w) P next L 0 r true +
      siteAIS w (accDown tiny w) (accUp tiny w) P next L 0 r false < 1 + w ^ L := by
  have w5 := pow_pos hw0 5
  by_cases h5 : L ≤ 5
  · have h1 := siteAIS_le_ideal (next := next) ht hw0 hw hP (le_refl L) r
    obtain ⟨n, rfl⟩ : ∃ n, L = n + 3 := ⟨L - 3, by omega⟩
    have h2 := siteIdeal_two (next := next) hw0.le hw hP n r
    have h3 : 2 * ((n + 3 : ℕ) : ℝ) * tiny ≤ 10 * tiny := by
      refine mul_le_mul_of_nonneg_right ?_ ht
      have : ((n + 3 : ℕ) : ℝ) ≤ 5 := by exact_mod_cast h5
      linarith
    linarith
  · have h1 := siteAIS_le_ideal (next := next) ht hw0 hw hP (show 5 ≤ L by omega) r
    have h2 := siteIdeal_two (next := next) hw0.le hw hP 2 r
    have h3 := pow_pos hw0 L
    norm_num at h1 h2
    linarith

theorem siteAIS_lt_three {tiny : ℝ} (ht : 0 ≤ tiny) (hw0 : 0 < w) (hw : w ≤ 1 / 2)
    (hP : ∀ r, 0 ≤ P r ∧ P r ≤ 1) {r : R} {p q : ℝ} (h0 : P r = p) (h1 : P (next r 1) = p)
    (h2 : P (next r w) = p) (h11 : P (next (next r 1) 1) = q) (h12 : P (next (next r 1) (w ^ 2)) = p)
    (h21 : P (next (next r w) 1) = p) (h22 : P (next (next r w) (w ^ 2)) = p)
    (hsmall : 7 * p * w ^ 5 + 5 * w ^ 7 + 14 * tiny < w ^ 4 * p * (1 - p) * (q - p)) {L : ℕ} (hL : 4 ≤ L) :
    siteAIS w (accDown tiny w) (accUp tiny w) P next L 0 r true +
      siteAIS w (accDown tiny w) (accUp tiny w) P next L 0 r false < 1 + w ^ L := by
  have w7 := pow_pos hw0 7
  by_cases h5 : L ≤ 7
  · have h1' := siteAIS_le_ideal (next := next) ht hw0 hw hP (le_refl L) r
    obtain ⟨n, rfl⟩ : ∃ n, L = n + 4 := ⟨L - 4, by omega⟩
    have h2' := siteIdeal_three (next := next) hw0.le hw hP n h0 h1 h2 h11 h12 h21 h22
    have h3 : 2 * ((n + 4 : ℕ) : ℝ) * tiny ≤ 14 * tiny := by
      refine mul_le_mul_of_nonneg_right ?_ ht
      have : ((n + 4 : ℕ) : ℝ) ≤ 7 := by exact_mod_cast h5
      linarith
    linarith
  · have h1' := siteAIS_le_ideal (next := next) ht hw0 hw hP (show 7 ≤ L by omega) r
    have h2' := siteIdeal_three (next := next) hw0.le hw hP 3 h0 h1 h2 h11 h12 h21 h22
    have h3 := pow_pos hw0 L
    norm_num at h1' h2'
    linarith

end Discs
