import Verif.Lemmas.SiteAIS
import Verif.Props.AIS
import Verif.Props.AdaptiveAverages
import Verif.Props.AdaptiveLB
import Verif.Props.AdaptiveD
import Verif.Props.BlockGibbs

/-!
# C113: the reported log Z with the samplers that the log Z experiment sweeps

`discs/run_configs/ebm/binray_ebm/logz.py:14-37` runs the annealed estimate of `log Z` with seven samplers.  The
locally informed ones and the random walk adapt their step while they anneal.  An unbiased estimate of the ratio of
the partition functions (C53) needs kernels that keep the current target; adaptive kernels do not keep it (C88).
Here one chain is run (`B = 1`), from the exact initial distribution.
-/

namespace Discs

open Finset Spec

/-- The exponential of the last reported `log Z` has expectation `Z₁ / Z₀`. -/
def AISUnbiased {X St : Type*} [Inhabited X] {Ω : St → Type*} [∀ s, Fintype (Ω s)] (S : Finset X)
    (score : ℝ → X → ℝ) (L : ℕ) (p : ℕ → ∀ s, X → Ω s → ℝ) (step : ℕ → ∀ s, X → Ω s → ℝ → X × St) (s₀ : St) : Prop :=
  pathMean S (score 0) p step (aisEstimate score L) L s₀ = normaliser S (score 1) / normaliser S (score 0)

/-! ## Without adaptation -/

section Fixed

variable {X St : Type*} [Inhabited X] {Ω : St → Type*} [∀ s, Fintype (Ω s)]

/-- When the samples of step `k` follow a kernel `K k` that keeps the target of that step, whatever the history, the
estimate is unbiased. -/
theorem ais_of_kernels {S : Finset X} {score : ℝ → X → ℝ} {L : ℕ} (hL : 0 < L)
    {p : ℕ → ∀ s, X → Ω s → ℝ} {step : ℕ → ∀ s, X → Ω s → ℝ → X × St} {s₀ : St} (Good : ℕ → St → Prop)
    (hg0 : Good 0 s₀) (hg : ∀ k s x ω u, Good k s → Good (k + 1) (step k s x ω u).2)
    (hval : ∀ k s, ∀ x ∈ S, ∀ ω u, (step k s x ω u).1 ∈ S) (K : ℕ → X → X → ℝ)
    (hK : ∀ k s, Good k s → ∀ x ∈ S, ∀ G : X → ℝ,
      (∑ ω, p k s x ω * ∫ u in Set.Ico (0 : ℝ) 1, G (step k s x ω u).1) = ∑ y ∈ S, K k x y * G y)
    (hinv : ∀ k < L, Invariant S (fun x => Real.exp (score ((k + 1 : ℕ) / (L : ℝ)) x)) (K k)) :
    AISUnbiased S score L p step s₀ := by
  set inc : ℕ → X → ℝ := fun k x =>
    Real.exp (score ((k + 1 : ℕ) / (L : ℝ)) x - score ((k : ℕ) / (L : ℝ)) x) with hinc
  have key : ∀ n k, k + n = L → ∃ W : X → ℝ, (∀ s, Good k s → ∀ x ∈ S, aisVal p step inc n k s x = W x) ∧
      ∑ x ∈ S, Real.exp (score ((k : ℕ) / (L : ℝ)) x) * W x = normaliser S (score 1) := by
    intro n
    induction n with
    | zero =>
      intro k hk
      refine ⟨fun _ => 1, fun s _ x _ => rfl, ?_⟩
      rw [show k = L by omega, div_self (by positivity)]
      simp [normaliser]
    | succ n ih =>
      intro k hk
      obtain ⟨W, h1, h2⟩ := ih (k + 1) (by omega)
      refine ⟨fun x => inc k x * ∑ y ∈ S, K k x y * W y, fun s hs x hx => ?_, ?_⟩
      · rw [aisVal]
        congr 1
        rw [← hK k s hs x hx W]
        refine Finset.sum_congr rfl fun ω _ => ?_
        congr 1
        refine MeasureTheory.setIntegral_congr_fun measurableSet_Ico fun u _ => ?_
        exact h1 _ (hg k s x ω u hs) _ (hval k s x hx ω u)
      · rw [← h2]
        have e : ∀ x ∈ S, Real.exp (score ((k : ℕ) / (L : ℝ)) x) * (inc k x * ∑ y ∈ S, K k x y * W y) =
            ∑ y ∈ S, Real.exp (score ((k + 1 : ℕ) / (L : ℝ)) x) * K k x y * W y := by
          intro x _
          rw [hinc, ← mul_assoc, ← Real.exp_add, add_sub_cancel, Finset.mul_sum]
          exact Finset.sum_congr rfl fun y _ => by ring
        rw [Finset.sum_congr rfl e, Finset.sum_comm]
        refine Finset.sum_congr rfl fun y hy => ?_
        rw [← Finset.sum_mul, hinv k (by omega) y hy]
  obtain ⟨W, h1, h2⟩ := key L 0 (by omega)
  unfold AISUnbiased
  rw [pathMean_ais S score hL p step s₀]
  congr 1
  rw [← h2]
  refine Finset.sum_congr rfl fun x hx => ?_
  rw [h1 s₀ hg0 x hx, Nat.cast_zero, zero_div]

end Fixed

/-- **C113 (random walk without adaptation, ideal acceptance test).** Any score, any number of categories, any
number of steps: the estimate is unbiased. -/
theorem rw_fixed_ais {D : ℕ} (t : ℝ) (score : ℝ → (Fin D → ℤ) → ℝ) {C : ℕ} (hC : 2 ≤ C) {L : ℕ} (hL : 0 < L)
    (s₀ : RWState) (h0 : 0 ≤ s₀.radius) (h1 : s₀.radius ≤ D) :
    AISUnbiased (validStates C D) score L (fun _ => rwLaws C)
      (fun k => rwMove false t 0 (score ((k + 1 : ℕ) / (L : ℝ))) C) s₀ := by
  refine ais_of_kernels hL (fun _ s => s.radius = s₀.radius) rfl
    (fun k s x ω u hs => (rwMove_radius_fixed t 0 _ C s x ω u).trans hs) (fun k s x hx d u => ?_)
    (fun k => rwKernel false t 0 (score ((k + 1 : ℕ) / (L : ℝ))) C s₀) (fun k s hs x hx G => ?_) fun k hk => ?_
  · by_cases hb : bernoulliLogp 0 u (score ((k + 1 : ℕ) / (L : ℝ)) (rwPropose x d) - score ((k + 1 : ℕ) / (L : ℝ)) x)
    · show (rwMove false t 0 _ C s x d u).1 ∈ _
      rw [rwMove_accept hb]; exact rwPropose_valid (by omega) x d
    · show (rwMove false t 0 _ C s x d u).1 ∈ _
      rw [rwMove_reject hb]; exact hx
  · exact (rw_fixed_expect t le_rfl (score ((k + 1 : ℕ) / (L : ℝ))) hC G s₀ 0 s hs x hx).2
  · exact invariant_of_reversible (rw_reversible false t _ hC s₀ h0 h1) (rw_stochastic false t le_rfl _ hC s₀ h0 h1)

/-- One block Gibbs step of a single chain: next sample and next state.  The step draws no uniform number. -/
def blockGibbsMove {D : ℕ} (C b : ℕ) (s : BlockState) (x : Fin D → ℤ) (k : Fin (categoriesIter C b).length)
    (_u : ℝ) : (Fin D → ℤ) × BlockState :=
  let r := blockGibbsStep C b (fun _ : Fin 1 => x) (fun _ => k) s
  (r.1 0, r.2.1)

/-- **C113 (block Gibbs).** Any score, number of categories, block size and number of steps: the estimate is
unbiased. -/
theorem blockGibbs_ais {D : ℕ} (score : ℝ → (Fin D → ℤ) → ℝ) {C b : ℕ} (hC : 0 < C) {L : ℕ} (hL : 0 < L)
    (s₀ : BlockState) :
    AISUnbiased (Ω := fun _ : BlockState => Fin (categoriesIter C b).length) (validStates C D) score L
      (fun k s x => softmax (blockScores (score ((k + 1 : ℕ) / (L : ℝ))) C b x s.index))
      (fun _ => blockGibbsMove C b) s₀ := by
  have hval : ∀ (s : BlockState), ∀ x ∈ validStates C D, ∀ ω u, (blockGibbsMove C b s x ω u).1 ∈ validStates C D :=
    fun s x hx ω u => setBlock_valid hx _ ((mem_categoriesIter _).1 (List.get_mem (categoriesIter C b) ω))
  refine ais_of_kernels hL (fun k s => s = (blockGibbsUpdate C D b)^[k] s₀) rfl ?_ (fun _ s x hx ω u => hval s x hx ω u)
    (fun k => blockGibbsKernel (score ((k + 1 : ℕ) / (L : ℝ))) C b ((blockGibbsUpdate C D b)^[k] s₀)) ?_ ?_
  · intro k s x ω u hs
    rw [Function.iterate_succ_apply', ← hs]
    rfl
  · rintro k s rfl x hx G
    unfold blockGibbsKernel law
    simp only [Finset.sum_mul]
    rw [Finset.sum_comm]
    refine Finset.sum_congr rfl fun ω _ => ?_
    have hc : (∫ u in Set.Ico (0 : ℝ) 1, G (blockGibbsMove C b ((blockGibbsUpdate C D b)^[k] s₀) x ω u).1) =
        G (blockGibbsMove C b ((blockGibbsUpdate C D b)^[k] s₀) x ω 0).1 := by
      show (∫ _u in Set.Ico (0 : ℝ) 1, G (blockGibbsMove C b ((blockGibbsUpdate C D b)^[k] s₀) x ω 0).1) = _
      rw [MeasureTheory.setIntegral_const]; simp
    rw [hc]
    have hy := hval ((blockGibbsUpdate C D b)^[k] s₀) x hx ω 0
    rw [Finset.sum_eq_single_of_mem _ hy]
    · rw [if_pos]; rfl
    · intro y _ hne
      rw [if_neg (fun h => hne h.symm), zero_mul]
  · exact fun k _ => invariant_of_reversible (blockGibbs_reversible _ C b _) (blockGibbs_stochastic _ hC _)

/-! ## A model that looks at one site -/

variable {D : ℕ}

/-- The annealed score (`resnet.py:111-123`) of a network that looks at site `i` only, with the mean image 1/2: at
temperature `k / L` the two values of the site have weights `1` and `w ^ k`. -/
noncomputable def siteScore (w : ℝ) (L : ℕ) (i : Fin D) (β : ℝ) : (Fin D → ℤ) → ℝ :=
  imageForward 0 (some fun _ => 1 / 2) (siteModel (w ^ L) i) (some β)

theorem siteScore_eq (w : ℝ) (L : ℕ) (i : Fin D) (β : ℝ) (x : Fin D → ℤ) :
    siteScore w L i β x = D * Real.log (1 / 2) + β * siteModel (w ^ L) i x := by
  have e : ∀ j : Fin D, ((x j : ℝ) * Real.log (1 / 2 + 0) + (1 - (x j : ℝ)) * Real.log (1 + (-(1 / 2) + 0))) =
      Real.log (1 / 2) := by
    intro j
    rw [add_zero, show (1 : ℝ) + (-(1 / 2) + 0) = 1 / 2 by norm_num]; ring
  simp only [siteScore, imageForward, e, Finset.sum_const, Finset.card_univ, Fintype.card_fin, nsmul_eq_mul]
  ring

theorem siteScore_step (w : ℝ) {L : ℕ} (hL : 0 < L) (i : Fin D) (k : ℕ) (x : Fin D → ℤ) :
    siteScore w L i ((k : ℕ) / (L : ℝ)) x = D * Real.log (1 / 2) + siteModel (w ^ k) i x := by
  rw [siteScore_eq]
  congr 1
  unfold siteModel
  split_ifs
  · simp
  · rw [Real.log_pow, Real.log_pow]; field_simp

theorem siteScore_sub (w : ℝ) {L : ℕ} (hL : 0 < L) (i : Fin D) (k : ℕ) (x y : Fin D → ℤ) :
    siteScore w L i ((k : ℕ) / (L : ℝ)) y - siteScore w L i ((k : ℕ) / (L : ℝ)) x =
      siteModel (w ^ k) i y - siteModel (w ^ k) i x := by
  rw [siteScore_step w hL, siteScore_step w hL]; ring

theorem siteScore_inc {w : ℝ} (hw : 0 < w) {L : ℕ} (hL : 0 < L) (i : Fin D) (k : ℕ) (x : Fin D → ℤ) :
    Real.exp (siteScore w L i ((k + 1 : ℕ) / (L : ℝ)) x - siteScore w L i ((k : ℕ) / (L : ℝ)) x) =
      if decide (x i = 1) then 1 else w := by
  rw [siteScore_step w hL, siteScore_step w hL]
  unfold siteModel
  by_cases h : x i = 1
  · simp [h]
  · simp only [h, if_false, decide_false, Bool.false_eq_true]
    rw [Real.log_pow, Real.log_pow]
    push_cast
    rw [show (D : ℝ) * Real.log (1 / 2) + (k + 1) * Real.log w - (D * Real.log (1 / 2) + k * Real.log w) =
      Real.log w by ring, Real.exp_log hw]

/-- The ratio of the partition functions of that model. -/
theorem siteScore_ratio {w : ℝ} (hw : 0 < w) {L : ℕ} (hL : 0 < L) (i : Fin D) :
    normaliser (validStates 2 D) (siteScore w L i 1) / normaliser (validStates 2 D) (siteScore w L i 0) =
      (1 + w ^ L) / 2 := by
  have e : ∀ k : ℕ, normaliser (validStates 2 D) (siteScore w L i ((k : ℕ) / (L : ℝ))) =
      Real.exp (D * Real.log (1 / 2)) * (((validStates 2 D).filter fun x => x i = 1).card * (1 + w ^ k)) := by
    intro k
    have h := sum_siteModel (pow_pos hw k) i (fun _ => 1) 1 1 fun x _ => by split_ifs <;> rfl
    rw [mul_one] at h
    rw [← h, normaliser, Finset.mul_sum]
    refine Finset.sum_congr rfl fun x _ => ?_
    rw [siteScore_step w hL, Real.exp_add, mul_one]
  have e0 := e 0
  have e1 := e L
  rw [Nat.cast_zero, zero_div, pow_zero] at e0
  rw [div_self (by positivity)] at e1
  have hN : (0 : ℝ) < ((validStates 2 D).filter fun x => x i = 1).card := by
    rw [Nat.cast_pos, Finset.card_pos]
    exact ⟨fun _ => 1, by rw [Finset.mem_filter, mem_validStates]; exact ⟨fun j => by simp, rfl⟩⟩
  have hE := (Real.exp_pos ((D : ℝ) * Real.log (1 / 2))).ne'
  rw [e0, e1]
  have := hN.ne'
  field_simp
  norm_num

section Site

variable {R St : Type*} {Ω : St → Type*} [∀ s, Fintype (Ω s)]

/-- The annealed run of a sampler whose proposals do not depend on the sample is the two-number process. -/
theorem ais_site {tiny w : ℝ} (ht : 0 ≤ tiny) (hw0 : 0 < w) (hw1 : w ≤ 1) {L : ℕ} (hL : 0 < L) {i : Fin D}
    {p : ∀ s, (Fin D → ℤ) → Ω s → ℝ} {step : ((Fin D → ℤ) → ℝ) → ∀ s, (Fin D → ℤ) → Ω s → ℝ → (Fin D → ℤ) × St}
    {rad : St → R} {flip : ∀ s, Ω s → Bool} {P : R → ℝ} {next : R → ℝ → R}
    {m : ∀ s, (Fin D → ℤ) → Ω s → Fin D → ℤ}
    (H : ∀ f, SiteSampler tiny f i p (step f) rad flip P next m) (s₀ : St) :
    pathMean (validStates 2 D) (siteScore w L i 0) (fun _ => p)
        (fun k => step (siteScore w L i ((k + 1 : ℕ) / (L : ℝ)))) (aisEstimate (siteScore w L i) L) L s₀ =
      (siteAIS w (accDown tiny w) (accUp tiny w) P next L 0 (rad s₀) true +
        siteAIS w (accDown tiny w) (accUp tiny w) P next L 0 (rad s₀) false) / 2 := by
  rw [pathMean_ais _ _ hL]
  simp only [siteScore_inc hw0 hL]
  have key : ∀ n k s, ∀ x ∈ validStates 2 D, aisVal (fun _ => p)
      (fun k => step (siteScore w L i ((k + 1 : ℕ) / (L : ℝ)))) (fun _ x => if decide (x i = 1) then 1 else w) n k s x =
        siteAIS w (accDown tiny w) (accUp tiny w) P next n k (rad s) (decide (x i = 1)) := by
    intro n
    induction n with
    | zero => intro k s x _; rfl
    | succ n ih =>
      intro k s x hx
      rw [aisVal, siteAIS]
      congr 1
      exact (H (siteScore w L i ((k + 1 : ℕ) / (L : ℝ)))).step_site ht (pow_pos hw0 (k + 1))
        (pow_le_one₀ hw0.le hw1) (siteScore_sub w hL i (k + 1)) (ih (k + 1)) s hx
  set A := siteAIS w (accDown tiny w) (accUp tiny w) P next L 0 (rad s₀) with hA
  have e0 : ∀ x, siteScore w L i 0 x = D * Real.log (1 / 2) + siteModel 1 i x := by
    intro x
    have := siteScore_step w hL i 0 x
    rwa [Nat.cast_zero, zero_div, pow_zero] at this
  have s1 : ∑ x ∈ validStates 2 D, Real.exp (siteScore w L i 0 x) * aisVal (fun _ => p)
      (fun k => step (siteScore w L i ((k + 1 : ℕ) / (L : ℝ)))) (fun _ x => if decide (x i = 1) then 1 else w) L 0 s₀ x =
      Real.exp (D * Real.log (1 / 2)) * (((validStates 2 D).filter fun x => x i = 1).card * (A true + A false)) := by
    have h := sum_siteModel one_pos i (fun x => A (decide (x i = 1))) (A true) (A false) fun x _ => by
      by_cases h : x i = 1 <;> simp [h]
    rw [one_mul] at h
    rw [← h, Finset.mul_sum]
    refine Finset.sum_congr rfl fun x hx => ?_
    rw [key L 0 s₀ x hx, e0, Real.exp_add, mul_assoc]
  have s0 : ∑ x ∈ validStates 2 D, Real.exp (siteScore w L i 0 x) =
      Real.exp (D * Real.log (1 / 2)) * (((validStates 2 D).filter fun x => x i = 1).card * 2) := by
    have h := sum_siteModel one_pos i (fun _ => 1) 1 1 fun x (_ : x ∈ validStates 2 D) => by split_ifs <;> rfl
    rw [one_mul, one_add_one_eq_two] at h
    rw [← h, Finset.mul_sum]
    refine Finset.sum_congr rfl fun x _ => ?_
    rw [e0, Real.exp_add, mul_one]
  have hN : (0 : ℝ) < ((validStates 2 D).filter fun x => x i = 1).card := by
    rw [Nat.cast_pos, Finset.card_pos]
    exact ⟨fun _ => 1, by rw [Finset.mem_filter, mem_validStates]; exact ⟨fun j => by simp, rfl⟩⟩
  have hE := (Real.exp_pos ((D : ℝ) * Real.log (1 / 2))).ne'
  rw [s1, s0]
  have := hN.ne'
  field_simp

theorem ais_site_lt {tiny w : ℝ} (ht : 0 ≤ tiny) (hw0 : 0 < w) (hw1 : w ≤ 1) {L : ℕ} (hL : 0 < L) {i : Fin D}
    {p : ∀ s, (Fin D → ℤ) → Ω s → ℝ} {step : ((Fin D → ℤ) → ℝ) → ∀ s, (Fin D → ℤ) → Ω s → ℝ → (Fin D → ℤ) × St}
    {rad : St → R} {flip : ∀ s, Ω s → Bool} {P : R → ℝ} {next : R → ℝ → R}
    {m : ∀ s, (Fin D → ℤ) → Ω s → Fin D → ℤ}
    (H : ∀ f, SiteSampler tiny f i p (step f) rad flip P next m) (s₀ : St)
    (hlt : siteAIS w (accDown tiny w) (accUp tiny w) P next L 0 (rad s₀) true +
        siteAIS w (accDown tiny w) (accUp tiny w) P next L 0 (rad s₀) false < 1 + w ^ L) :
    pathMean (validStates 2 D) (siteScore w L i 0) (fun _ => p)
        (fun k => step (siteScore w L i ((k + 1 : ℕ) / (L : ℝ)))) (aisEstimate (siteScore w L i) L) L s₀ <
      normaliser (validStates 2 D) (siteScore w L i 1) / normaliser (validStates 2 D) (siteScore w L i 0) := by
  rw [ais_site ht hw0 hw1 hL H, siteScore_ratio hw0 hL]
  linarith

end Site

/-! ## Two steps are enough: random walk, DMALA, DLMC -/

/-- `w = g / 8` makes the effect of the first adaptation larger than everything else. -/
theorem small_two {p p0 gap g tiny : ℝ} (hg : 0 < g) (hgap : g ≤ gap) (hp0 : p0 ≤ p) (hgp : g ≤ p0)
    (ht : 20 * tiny < (g / 8) ^ 3 * p0 * g) :
    3 * p * (g / 8) ^ 4 + 5 * (g / 8) ^ 5 + 10 * tiny < (g / 8) ^ 3 * p * gap := by
  have w3 : 0 < (g / 8) ^ 3 := by positivity
  have hp : 0 < p := by linarith
  have h1 : (g / 8) ^ 3 * p * g ≤ (g / 8) ^ 3 * p * gap := mul_le_mul_of_nonneg_left hgap (by positivity)
  have h2 : (g / 8) ^ 3 * g * g ≤ (g / 8) ^ 3 * g * p := mul_le_mul_of_nonneg_left (by linarith) (by positivity)
  have h3 : (g / 8) ^ 3 * g * p0 ≤ (g / 8) ^ 3 * g * p := mul_le_mul_of_nonneg_left hp0 (by positivity)
  have e1 : 3 * p * (g / 8) ^ 4 = 3 / 8 * ((g / 8) ^ 3 * p * g) := by ring
  have e2 : 5 * (g / 8) ^ 5 = 5 / 64 * ((g / 8) ^ 3 * g * g) := by ring
  have e3 : (g / 8) ^ 3 * p * g = (g / 8) ^ 3 * g * p := by ring
  have e4 : (g / 8) ^ 3 * p0 * g = (g / 8) ^ 3 * g * p0 := by ring
  have h4 : 0 < (g / 8) ^ 3 * g * p := by positivity
  rw [e1, e2]
  rw [e4] at ht
  rw [e3] at h1 ⊢
  linarith

theorem nextRadius_mem (hD : 1 ≤ D) (t r a : ℝ) : 1 ≤ nextRadius D t r a ∧ nextRadius D t r a ≤ D := by
  have hDr : (1 : ℝ) ≤ D := by exact_mod_cast hD
  unfold nextRadius clip
  exact ⟨le_min (le_max_right _ _) hDr, min_le_right _ _⟩

/-- **C113 (refuted for the adaptive random walk).** For every dimension `D ≥ 2`, every requested acceptance rate in
`[0, 1)` and every offset of the acceptance test small against `1 / D ^ 5` there is a network, for every number
`L ≥ 3` of temperature steps, whose partition function is underestimated. -/
theorem rwAdaptive_ais_biased (hD : 2 ≤ D) {t tiny : ℝ} (ht0 : 0 ≤ t) (ht1 : t < 1) (ht : 0 ≤ tiny)
    (hsmall : 10240 * (D : ℝ) ^ 5 * tiny < min (1 - t) (1 / 2) ^ 4) {L : ℕ} (hL : 3 ≤ L) (i : Fin D) :
    let w := min (1 - t) (1 / 2) / (8 * D)
    pathMean (validStates 2 D) (siteScore w L i 0) (fun _ => rwLaws 2)
        (fun k => rwMove true t tiny (siteScore w L i ((k + 1 : ℕ) / (L : ℝ))) 2) (aisEstimate (siteScore w L i) L) L
        rwInit <
      normaliser (validStates 2 D) (siteScore w L i 1) / normaliser (validStates 2 D) (siteScore w L i 0) := by
  intro w
  have hDr : (2 : ℝ) ≤ D := by exact_mod_cast hD
  have hDp : (0 : ℝ) < D := by linarith
  set δ := min (1 - t) (1 / 2) with hδ
  have hδ1 : δ ≤ 1 - t := min_le_left _ _
  have hδ2 : δ ≤ 1 / 2 := min_le_right _ _
  have hδ0 : 0 < δ := lt_min (by linarith) (by norm_num)
  have ew : w = δ / D / 8 := by simp only [w, ← hδ]; field_simp
  have hg0 : 0 < δ / D := by positivity
  have hg1 : δ / D ≤ 1 / D := div_le_div_of_nonneg_right (by linarith) hDp.le
  have hD1 : 1 / (D : ℝ) ≤ 1 / 2 := one_div_le_one_div_of_le (by norm_num) hDr
  have hw0 : 0 < w := by rw [ew]; positivity
  have hw1 : w ≤ 1 / 2 := by rw [ew]; linarith
  refine ais_site_lt (Ω := fun _ : RWState => RWDraw 2 D) (step := fun f => rwMove true t tiny f 2) ht hw0
    (by linarith) (by omega) (fun f => rw_siteSampler t tiny f i) rwInit ?_
  have hgood : (1 : ℝ) ≤ rwInit.radius ∧ rwInit.radius ≤ D := ⟨by simp [rwInit], by simp [rwInit]; linarith⟩
  have hP : ∀ r : ℝ, 1 ≤ r ∧ r ≤ D → r / D = max 0 (min 1 (r / D)) := fun r hr => by
    rw [min_eq_right ((div_le_one hDp).2 hr.2), max_eq_right (div_nonneg (by linarith [hr.1]) hDp.le)]
  rw [siteAIS_congr (Good := fun r : ℝ => 1 ≤ r ∧ r ≤ D) (fun r a => nextRadius_mem (by omega) t r a) hP _ _ _ _ hgood,
    siteAIS_congr (Good := fun r : ℝ => 1 ≤ r ∧ r ≤ D) (fun r a => nextRadius_mem (by omega) t r a) hP _ _ _ _ hgood]
  refine siteAIS_lt_two ht hw0 hw1 (fun r => ⟨le_max_left _ _, max_le zero_le_one (min_le_left _ _)⟩) ?_ hL
  rw [← hP _ hgood, ← hP _ (nextRadius_mem (by omega) t _ _), ← hP _ (nextRadius_mem (by omega) t _ _)]
  have e1 : nextRadius D t rwInit.radius 1 = 2 - t := by
    simp only [rwInit, nextRadius, clip]
    rw [max_eq_left (by linarith), min_eq_left (by linarith)]; ring
  have e2 : nextRadius D t rwInit.radius w ≤ 2 - t - δ := by
    simp only [rwInit, nextRadius, clip]
    exact (min_le_left _ _).trans (max_le (by linarith) (by linarith))
  rw [ew] at e2 ⊢
  refine small_two hg0 ?_ (p0 := 1 / D) (by simp [rwInit]) hg1 ?_
  · rw [e1, ← sub_div]
    exact div_le_div_of_nonneg_right (by linarith) hDp.le
  · have : (δ / D / 8) ^ 3 * (1 / D) * (δ / D) = δ ^ 4 / (512 * (D : ℝ) ^ 5) := by field_simp; norm_num
    rw [this, lt_div_iff₀ (by positivity)]
    linarith

/-- With the configured rate and the code's offset, for samples of at most 5000 sites. -/
theorem rwAdaptive_ais_biased_default (hD : 2 ≤ D) (hD' : (D : ℝ) ≤ 5000) {L : ℕ} (hL : 3 ≤ L) (i : Fin D) :
    ∃ w : ℝ, 0 < w ∧ ¬ AISUnbiased (validStates 2 D) (siteScore w L i) L (fun _ => rwLaws 2)
      (fun k => rwMove true 0.234 mhTiny (siteScore w L i ((k + 1 : ℕ) / (L : ℝ))) 2) rwInit := by
  have hDp : (0 : ℝ) < D := by have : 0 < D := by omega
                               exact_mod_cast this
  refine ⟨min (1 - 0.234) (1 / 2) / (8 * D), div_pos (lt_min (by norm_num) (by norm_num)) (by positivity), fun h => ?_⟩
  refine absurd h (rwAdaptive_ais_biased hD (by norm_num) (by norm_num) mhTiny_nonneg ?_ hL i).ne
  have : (D : ℝ) ^ 5 ≤ 5000 ^ 5 := pow_le_pow_left₀ hDp.le hD' 5
  unfold mhTiny
  rw [min_eq_right (by norm_num)]
  norm_num at this ⊢
  linarith

/-- The common part of DMALA and DLMC. -/
theorem d_ais_biased {c : DCfg} (hc : c.adapts) (hz : 1 < c.scheduleStep ∨ c.resetZ ≤ 0) (htgt : c.target ≤ 1)
    {tau : DState → Option ℝ} {q Q : ℝ → ℝ} {loc : DStats} {N k : ℝ} (hN : 0 < N)
    (hk : 0 < k) (hloc : loc.logZ = Real.log N) (hloc' : loc.logTau = Real.log k - Real.log N)
    (htau : tau dInit = some loc.logTau) (htau' : ∀ s : DState, s.steps ≠ 0 → tau s = s.logTau)
    (hQ : ∀ m, 0 < m → q (Real.log m - Real.log N) = Q m) (hq : ∀ t, 0 ≤ q t ∧ q t ≤ 1) {tiny : ℝ}
    (ht : 0 ≤ tiny) {p0 g : ℝ} (hg : 0 < g) (hgp : g ≤ p0) (hp : p0 ≤ Q k)
    (hgap : ∀ a ≤ 1 / 2, g ≤ Q (dAim N c.target 1) - Q (dAim N c.target a))
    (hsmall : 20 * tiny < (g / 8) ^ 3 * p0 * g) {L : ℕ} (hL : 3 ≤ L) {i : Fin D}
    {p : DState → (Fin D → ℤ) → (Fin D → Bool) → ℝ}
    {move : ((Fin D → ℤ) → ℝ) → DState → (Fin D → ℤ) → (Fin D → Bool) → ℝ → (Fin D → ℤ) × DState}
    {flip : DState → (Fin D → Bool) → Bool} {m : DState → (Fin D → ℤ) → (Fin D → Bool) → Fin D → ℤ}
    (H : ∀ f, SiteSampler (Ω := fun _ : DState => Fin D → Bool) tiny f i p (move f) id flip (dSiteProb tau q)
      (dSiteNext c tau loc) m) :
    pathMean (Ω := fun _ : DState => Fin D → Bool) (validStates 2 D) (siteScore (g / 8) L i 0) (fun _ => p)
        (fun k => move (siteScore (g / 8) L i ((k + 1 : ℕ) / (L : ℝ)))) (aisEstimate (siteScore (g / 8) L i) L) L
        dInit <
      normaliser (validStates 2 D) (siteScore (g / 8) L i 1) /
        normaliser (validStates 2 D) (siteScore (g / 8) L i 0) := by
  have hQ1 : ∀ m, 0 < m → 0 ≤ Q m ∧ Q m ≤ 1 := fun m hm => by rw [← hQ m hm]; exact hq _
  have hg1 : g ≤ 1 := hgp.trans (hp.trans (hQ1 k hk).2)
  refine ais_site_lt (Ω := fun _ : DState => Fin D → Bool) (w := g / 8) ht (by linarith) (by linarith) (by omega)
    H dInit ?_
  refine siteAIS_lt_two ht (by linarith) (by linarith) (fun s => ?_) ?_ hL
  · unfold dSiteProb
    cases tau s with
    | none => simp
    | some t => exact hq t
  · have h1 := (dSite_next_prob hc hz hN hloc htau htau' hQ (fun m hm => (hQ1 m hm).1) 1).1 (by nlinarith)
    have h2 := (dSite_next_prob hc hz hN hloc htau htau' hQ (fun m hm => (hQ1 m hm).1) (g / 8)).2
    have h3 : dSiteProb tau q dInit = Q k := by
      unfold dSiteProb
      rw [htau, hloc']
      exact hQ k hk
    have h4 := hgap (g / 8) (by linarith)
    refine small_two hg ?_ (p0 := p0) (by rw [id, h3]; exact hp) hgp hsmall
    rw [id, h1]
    linarith

/-- **C113 (refuted for adaptive DMALA).** -/
theorem dmalaAdaptive_ais_biased (hD : 0 < D) {c : DCfg} (hc : c.adapts)
    (hz : 1 < c.scheduleStep ∨ c.resetZ ≤ 0) (ht0 : 0 ≤ c.target) (ht1 : c.target < 1) {tiny : ℝ} (ht : 0 ≤ tiny)
    (eps : ℝ) {h : ℝ → ℝ} (hh1 : h 0 ≤ 0) (hh2 : 1 ≤ D * Real.exp (h 0))
    (hsmall : 16000000000 * (D : ℝ) ^ 5 * tiny < 243 * min (1 - c.target) (1 / 2) ^ 4) {L : ℕ} (hL : 3 ≤ L)
    (i : Fin D) :
    let w := 3 * min (1 - c.target) (1 / 2) / (25 * D) / 8
    pathMean (Ω := fun _ : DState => Fin D → Bool) (validStates 2 D) (siteScore w L i 0)
        (fun _ => dmalaFlipLaw c h fun _ _ => 0)
        (fun k => dmalaMove c tiny eps h (siteScore w L i ((k + 1 : ℕ) / (L : ℝ))) fun _ _ => 0)
        (aisEstimate (siteScore w L i) L) L dInit <
      normaliser (validStates 2 D) (siteScore w L i 1) / normaliser (validStates 2 D) (siteScore w L i 0) := by
  intro w
  have hDr : (1 : ℝ) ≤ D := by exact_mod_cast hD
  have hDp : (0 : ℝ) < D := by linarith
  have hE : Real.exp (h 0) ≤ 1 := by rw [← Real.exp_zero]; exact Real.exp_le_exp.2 hh1
  set δ := min (1 - c.target) (1 / 2) with hδ
  have hδ2 : δ ≤ 1 / 2 := min_le_right _ _
  have hδ0 : 0 < δ := lt_min (by linarith) (by norm_num)
  refine d_ais_biased (q := fun t => dmalaFlipProb t (h 0)) (Q := fun m => m / (m + D)) (k := 3)
    (N := (D : ℝ) * Real.exp (h 0)) (p0 := 3 / (4 * D)) (g := 3 * δ / (25 * D)) hc hz ht1.le (by linarith)
    (by norm_num) (by rw [dmalaLoc0_eq]) (by rw [dmalaLoc0_eq]) ?_ ?_ (fun m hm => dmala_prob hD h m hm)
    (fun t => ⟨(dmalaFlipProb_mem _ _).1.le, (dmalaFlipProb_mem _ _).2.le⟩) ht (by positivity) ?_
    (dmala_first hD) (fun a ha => dmala_gap hD hh2 (mul_le_of_le_one_right hDp.le hE) ht0 ht1 ha) ?_ hL
    (move := fun f => dmalaMove c tiny eps h f fun _ _ => 0) (fun f => dmala_siteSampler hc tiny eps h f i)
  · simp [dmalaLogTau, hc.1, hc.2, dInit]
  · intro s hs; simp [dmalaLogTau, hc.1, hc.2, hs]
  · rw [div_le_div_iff₀ (by positivity) (by positivity)]; nlinarith
  · have : (3 * δ / (25 * D) / 8) ^ 3 * (3 / (4 * D)) * (3 * δ / (25 * D)) =
        243 * δ ^ 4 / (800000000 * (D : ℝ) ^ 5) := by field_simp; norm_num
    rw [this, lt_div_iff₀ (by positivity)]
    linarith

/-- With the configured rate and the code's offset, for samples of at most 800 sites (a 28 x 28 image has 784). -/
theorem dmalaAdaptive_ais_biased_default (hD : 0 < D) (hD' : (D : ℝ) ≤ 800) {c : DCfg} (hc : c.adapts)
    (hz : 1 < c.scheduleStep) (htgt : c.target = 0.574) {h : ℝ → ℝ} (hh : h 0 = 0) {L : ℕ} (hL : 3 ≤ L) (i : Fin D) :
    ∃ w : ℝ, 0 < w ∧ ¬ AISUnbiased (Ω := fun _ : DState => Fin D → Bool) (validStates 2 D) (siteScore w L i) L
      (fun _ => dmalaFlipLaw c h fun _ _ => 0)
      (fun k => dmalaMove c mhTiny llEps h (siteScore w L i ((k + 1 : ℕ) / (L : ℝ))) fun _ _ => 0) dInit := by
  have hDr : (1 : ℝ) ≤ D := by exact_mod_cast hD
  refine ⟨3 * min (1 - c.target) (1 / 2) / (25 * D) / 8, ?_, fun hu => ?_⟩
  · rw [htgt, min_eq_left (by norm_num)]; norm_num; exact hD
  refine absurd hu (dmalaAdaptive_ais_biased hD hc (Or.inl hz) (by rw [htgt]; norm_num) (by rw [htgt]; norm_num)
    mhTiny_nonneg _ hh.le (by rw [hh, Real.exp_zero, mul_one]; exact hDr) ?_ hL i).ne
  have : (D : ℝ) ^ 5 ≤ 800 ^ 5 := pow_le_pow_left₀ (by linarith) hD' 5
  unfold mhTiny
  rw [htgt, min_eq_left (by norm_num)]
  norm_num at this ⊢
  linarith

/-- **C113 (refuted for adaptive DLMC, interpolating solver).** `κ` bounds the probability from below that a site is
not flipped after a step that was accepted for sure. -/
theorem dlmcAdaptive_ais_biased (hD : 0 < D) {c : DCfg} (hc : c.adapts) (hsol : c.solver = "interpolate")
    (hz : 1 < c.scheduleStep ∨ c.resetZ ≤ 0) (ht1 : c.target < 1) (hn : 1 ≤ c.n) {tiny : ℝ}
    (ht : 0 ≤ tiny) (eps : ℝ) {h : ℝ → ℝ} (hh2 : 1 ≤ D * Real.exp (h 0)) {κ : ℝ} (hκ0 : 0 < κ)
    (hκ1 : κ ≤ 1 / 5) (hκ : κ ≤ Real.exp (-(2 * dAim (D * Real.exp (h 0)) c.target 1 / D)))
    (hsmall : 10240 * (D : ℝ) ^ 5 * tiny < 27 * κ ^ 4 * min (1 - c.target) (1 / 2) ^ 4) {L : ℕ} (hL : 3 ≤ L)
    (i : Fin D) :
    let w := 3 * κ * min (1 - c.target) (1 / 2) / D / 8
    pathMean (Ω := fun _ : DState => Fin D → Bool) (validStates 2 D) (siteScore w L i 0)
        (fun _ => dlmcFlipLaw c h fun _ _ => 0)
        (fun k => dlmcMove c tiny eps h (siteScore w L i ((k + 1 : ℕ) / (L : ℝ))) fun _ _ => 0)
        (aisEstimate (siteScore w L i) L) L dInit <
      normaliser (validStates 2 D) (siteScore w L i 1) / normaliser (validStates 2 D) (siteScore w L i 0) := by
  intro w
  have hDr : (1 : ℝ) ≤ D := by exact_mod_cast hD
  have hDp : (0 : ℝ) < D := by linarith
  have hsol' : c.solver ∈ knownSolvers := by rw [hsol]; unfold knownSolvers; simp
  set δ := min (1 - c.target) (1 / 2) with hδ
  have hδ2 : δ ≤ 1 / 2 := min_le_right _ _
  have hδ0 : 0 < δ := lt_min (by linarith) (by norm_num)
  refine d_ais_biased (q := fun t => ((dlmcFlipProb c.solver t (h 0) 0).toOption).getD 0)
    (Q := fun m => 1 / 2 * (1 - Real.exp (-(2 * m / D)))) (k := c.n) (N := (D : ℝ) * Real.exp (h 0))
    (p0 := 1 / (3 * D)) (g := 3 * κ * δ / D) hc hz ht1.le (by linarith)
    (by linarith) (by rw [dlmcLoc0_eq]) (by rw [dlmcLoc0_eq]) ?_ ?_ (fun m hm => dlmc_prob hD hsol h m hm)
    ?_ ht (by positivity) ?_ (dlmc_first hD hn) (fun a ha => dlmc_gap hD hh2 ht1 ha hκ) ?_ hL
    (move := fun f => dlmcMove c tiny eps h f fun _ _ => 0) (fun f => dlmc_siteSampler hc hsol' tiny eps h f i)
  · simp [dlmcLogTau, hc.1, hc.2, dInit]
  · intro s hs; simp [dlmcLogTau, hc.1, hc.2, hs]
  · intro t
    have := dlmcFlipProb_mem (dlmcFlipProb_interpolate t (h 0) 0)
    simp only [hsol, dlmcFlipProb_interpolate, Except.toOption, Option.getD_some]
    exact ⟨this.1.le, this.2.1.le⟩
  · rw [div_le_div_iff₀ (by positivity) (by positivity)]
    have : κ * δ ≤ 1 / 5 * (1 / 2) := mul_le_mul hκ1 hδ2 hδ0.le (by norm_num)
    nlinarith
  · have : (3 * κ * δ / D / 8) ^ 3 * (1 / (3 * D)) * (3 * κ * δ / D) =
        27 * κ ^ 4 * δ ^ 4 / (512 * (D : ℝ) ^ 5) := by field_simp; norm_num
    rw [this, lt_div_iff₀ (by positivity)]
    linarith

/-- With the configured rate and number of flips and the code's offset, for samples of at most 1000 sites. -/
theorem dlmcAdaptive_ais_biased_default (hD : 0 < D) (hD' : (D : ℝ) ≤ 1000) {c : DCfg} (hc : c.adapts)
    (hsol : c.solver = "interpolate") (hz : 1 < c.scheduleStep) (htgt : c.target = 0.574) (hn : c.n = 3)
    {h : ℝ → ℝ} (hh : h 0 = 0) {L : ℕ} (hL : 3 ≤ L) (i : Fin D) :
    ∃ w : ℝ, 0 < w ∧ ¬ AISUnbiased (Ω := fun _ : DState => Fin D → Bool) (validStates 2 D) (siteScore w L i) L
      (fun _ => dlmcFlipLaw c h fun _ _ => 0)
      (fun k => dlmcMove c mhTiny llEps h (siteScore w L i ((k + 1 : ℕ) / (L : ℝ))) fun _ _ => 0) dInit := by
  have hDr : (1 : ℝ) ≤ D := by exact_mod_cast hD
  have hDp : (0 : ℝ) < D := by linarith
  have key : ∃ κ : ℝ, 0 < κ ∧ κ ≤ 1 / 5 ∧ κ ≤ Real.exp (-(2 * dAim (D * Real.exp (h 0)) c.target 1 / D)) ∧
      10240 * (D : ℝ) ^ 5 * mhTiny < 27 * κ ^ 4 * min (1 - c.target) (1 / 2) ^ 4 := by
    have e : 2 * dAim (D * Real.exp (h 0)) c.target 1 / D = 2 + 2.556 / D := by
      rw [hh, Real.exp_zero, mul_one, htgt, dAim, max_eq_right (by linarith)]
      field_simp
      ring
    rw [e, htgt, min_eq_left (by norm_num)]
    have h5 : Real.exp 5 ≤ 149 := by
      have := Real.exp_one_lt_d9
      have b : Real.exp 5 = Real.exp 1 ^ 5 := by rw [← Real.exp_nat_mul]; norm_num
      rw [b]
      calc Real.exp 1 ^ 5 ≤ 2.7182818286 ^ 5 := pow_le_pow_left₀ (Real.exp_pos _).le this.le 5
        _ ≤ 149 := by norm_num
    rcases le_or_gt (D : ℝ) 100 with hs | hs
    · refine ⟨1 / 149, by norm_num, by norm_num, ?_, ?_⟩
      · have a1 : 2.556 / (D : ℝ) ≤ 2.556 := div_le_self (by norm_num) hDr
        refine le_trans ?_ (Real.exp_le_exp.2 (by linarith : (-5 : ℝ) ≤ -(2 + 2.556 / D)))
        rw [Real.exp_neg, ← one_div]
        exact one_div_le_one_div_of_le (Real.exp_pos _) h5
      · have : (D : ℝ) ^ 5 ≤ 100 ^ 5 := pow_le_pow_left₀ (by linarith) hs 5
        unfold mhTiny
        norm_num at this ⊢
        linarith
    · refine ⟨1 / 13, by norm_num, by norm_num, ?_, ?_⟩
      · have a1 : 2.556 / (D : ℝ) ≤ 0.5 := by rw [div_le_iff₀ hDp]; linarith
        have h25 : Real.exp 2.5 ≤ 13 := by
          have b : Real.exp 5 = Real.exp 2.5 ^ 2 := by rw [← Real.exp_nat_mul]; norm_num
          rw [b] at h5
          exact abs_le_of_sq_le_sq' (by linarith) (by norm_num) |>.2
        refine le_trans ?_ (Real.exp_le_exp.2 (by linarith : (-2.5 : ℝ) ≤ -(2 + 2.556 / D)))
        rw [Real.exp_neg, ← one_div]
        exact one_div_le_one_div_of_le (Real.exp_pos _) h25
      · have : (D : ℝ) ^ 5 ≤ 1000 ^ 5 := pow_le_pow_left₀ (by linarith) hD' 5
        unfold mhTiny
        norm_num at this ⊢
        linarith
  obtain ⟨κ, k0, k1, k2, k3⟩ := key
  refine ⟨3 * κ * min (1 - c.target) (1 / 2) / D / 8, ?_, fun hu => ?_⟩
  · have : 0 < min (1 - c.target) (1 / 2) := lt_min (by rw [htgt]; norm_num) (by norm_num)
    positivity
  exact absurd hu (dlmcAdaptive_ais_biased hD hc hsol (Or.inl hz) (by rw [htgt]; norm_num) (by rw [hn]; norm_num)
    mhTiny_nonneg _ (by rw [hh, Real.exp_zero, mul_one]; exact hDr) k0 k1 k2 k3 hL i).ne

/-- **C113 (refuted for adaptive DLMC, Euler solver, balancing function `t / (1 + t)`).** -/
theorem dlmcEuler_ais_biased (hD : 3 ≤ D) {c : DCfg} (hc : c.adapts) (hsol : c.solver = "euler_forward")
    (hz : 1 < c.scheduleStep ∨ c.resetZ ≤ 0) (ht0 : 1 / 2 < c.target) (ht1 : c.target ≤ 1) (hn : 1 ≤ c.n)
    {tiny : ℝ} (ht : 0 ≤ tiny) (eps : ℝ)
    (hsmall : 10240 * (D : ℝ) ^ 5 * tiny < min (3 * (c.target - 1 / 2)) (1 / 2) ^ 4) {L : ℕ} (hL : 3 ≤ L) (i : Fin D) :
    let w := min (3 * (c.target - 1 / 2)) (1 / 2) / D / 8
    pathMean (Ω := fun _ : DState => Fin D → Bool) (validStates 2 D) (siteScore w L i 0)
        (fun _ => dlmcFlipLaw c logSigmoid fun _ _ => 0)
        (fun k => dlmcMove c tiny eps logSigmoid (siteScore w L i ((k + 1 : ℕ) / (L : ℝ))) fun _ _ => 0)
        (aisEstimate (siteScore w L i) L) L dInit <
      normaliser (validStates 2 D) (siteScore w L i 1) / normaliser (validStates 2 D) (siteScore w L i 0) := by
  intro w
  have hDr : (3 : ℝ) ≤ D := by exact_mod_cast hD
  have hDp : (0 : ℝ) < D := by linarith
  have hsol' : c.solver ∈ knownSolvers := by rw [hsol]; unfold knownSolvers; simp
  set δ := min (3 * (c.target - 1 / 2)) (1 / 2) with hδ
  have hδ1 : δ ≤ 3 * (c.target - 1 / 2) := min_le_left _ _
  have hδ2 : δ ≤ 1 / 2 := min_le_right _ _
  have hδ0 : 0 < δ := lt_min (by linarith) (by norm_num)
  have e : sigmoid 0 = 1 / 2 := by unfold sigmoid; norm_num
  have hN : (D : ℝ) * Real.exp (logSigmoid 0) = D / 2 := by rw [exp_logSigmoid, e]; ring
  refine d_ais_biased (q := fun t => ((dlmcFlipProb c.solver t (logSigmoid 0) 0).toOption).getD 0)
    (Q := fun m => min (m / D) (1 / 2)) (k := c.n) (N := (D : ℝ) * Real.exp (logSigmoid 0))
    (p0 := 1 / D) (g := δ / D) hc hz ht1 (by positivity)
    (by linarith) (by rw [dlmcLoc0_eq]) (by rw [dlmcLoc0_eq]) ?_ ?_ ?_ ?_ ht (by positivity) ?_ ?_ ?_ ?_ hL
    (move := fun f => dlmcMove c tiny eps logSigmoid f fun _ _ => 0)
    (fun f => dlmc_siteSampler hc hsol' tiny eps logSigmoid f i)
  · simp [dlmcLogTau, hc.1, hc.2, dInit]
  · intro s hs; simp [dlmcLogTau, hc.1, hc.2, hs]
  · intro m hm
    simp only [hsol, dlmcFlipProb_euler, Except.toOption, Option.getD_some]
    rw [e, ← Real.exp_add, exp_neg_exp_zero (by omega) _ _ hm]
  · intro t
    have := dlmcFlipProb_mem (dlmcFlipProb_euler t (logSigmoid 0) 0)
    simp only [hsol, dlmcFlipProb_euler, Except.toOption, Option.getD_some]
    exact ⟨this.1.le, this.2.1.le⟩
  · exact div_le_div_of_nonneg_right (by linarith) hDp.le
  · exact le_min (div_le_div_of_nonneg_right hn hDp.le) (one_div_le_one_div_of_le (by norm_num) (by linarith))
  · intro a ha
    rw [hN]
    have e1 : dAim (D / 2) c.target 1 = D / 2 + 3 * (1 - c.target) := max_eq_right (by linarith)
    have e2 : dAim (D / 2) c.target a ≤ D / 2 - δ := max_le (by linarith) (by linarith)
    have q1 : min (dAim (D / 2) c.target 1 / D) (1 / 2) = 1 / 2 := by
      refine min_eq_right ?_
      rw [e1, le_div_iff₀ hDp]; linarith
    have q2 : min (dAim (D / 2) c.target a / D) (1 / 2) ≤ 1 / 2 - δ / D := by
      refine (min_le_left _ _).trans ?_
      rw [div_le_iff₀ hDp, sub_mul, div_mul_cancel₀ _ hDp.ne']; linarith
    rw [q1]
    linarith
  · have : (δ / D / 8) ^ 3 * (1 / (D : ℝ)) * (δ / D) = δ ^ 4 / (512 * (D : ℝ) ^ 5) := by field_simp; norm_num
    rw [this, lt_div_iff₀ (by positivity)]
    linarith

/-- With the configured rate and number of flips and the code's offset, for samples of 3 to 1000 sites. -/
theorem dlmcEuler_ais_biased_default (hD : 3 ≤ D) (hD' : (D : ℝ) ≤ 1000) {c : DCfg} (hc : c.adapts)
    (hsol : c.solver = "euler_forward") (hz : 1 < c.scheduleStep) (htgt : c.target = 0.574) (hn : c.n = 3)
    {L : ℕ} (hL : 3 ≤ L) (i : Fin D) :
    ∃ w : ℝ, 0 < w ∧ ¬ AISUnbiased (Ω := fun _ : DState => Fin D → Bool) (validStates 2 D) (siteScore w L i) L
      (fun _ => dlmcFlipLaw c logSigmoid fun _ _ => 0)
      (fun k => dlmcMove c mhTiny llEps logSigmoid (siteScore w L i ((k + 1 : ℕ) / (L : ℝ))) fun _ _ => 0) dInit := by
  have hDr : (3 : ℝ) ≤ D := by exact_mod_cast hD
  have hmin : min (3 * ((0.574 : ℝ) - 1 / 2)) (1 / 2) = 0.222 := by rw [min_eq_left (by norm_num)]; norm_num
  refine ⟨min (3 * (c.target - 1 / 2)) (1 / 2) / D / 8, ?_, fun h => ?_⟩
  · rw [htgt, hmin]; positivity
  · refine absurd h (ne_of_lt (dlmcEuler_ais_biased hD hc hsol (Or.inl hz) (by rw [htgt]; norm_num)
      (by rw [htgt]; norm_num) (by rw [hn]; norm_num) mhTiny_nonneg llEps ?_ hL i))
    have : (D : ℝ) ^ 5 ≤ 1000 ^ 5 := pow_le_pow_left₀ (by linarith) hD' 5
    rw [htgt, hmin]
    unfold mhTiny
    norm_num at this ⊢
    linarith

/-! ## Three steps: GWG and the path-auxiliary sampler -/

/-- Radii reached from 1 in two steps with acceptance ratios 1 or at most 1/2. -/
theorem nextRadius_three_le (hD : 2 ≤ D) {t a b : ℝ} (ht1 : 1 / 2 < t) (ht2 : t < 3 / 4) (ha : a ≤ 1 / 2)
    (hb : b ≤ 1 / 2) {P : ℝ → ℝ} {p q : ℝ}
    (hP1 : ∀ r, 1 ≤ r → r < 3 / 2 → P r = p) (hP2 : ∀ r, 3 / 2 < r → r < 2 → P r = q) :
    P 1 = p ∧ P (nextRadius D t 1 1) = p ∧ P (nextRadius D t 1 a) = p ∧
      P (nextRadius D t (nextRadius D t 1 1) 1) = q ∧ P (nextRadius D t (nextRadius D t 1 1) b) = p ∧
      P (nextRadius D t (nextRadius D t 1 a) 1) = p ∧
      P (nextRadius D t (nextRadius D t 1 a) b) = p := by
  have hDr : (2 : ℝ) ≤ D := by exact_mod_cast hD
  have e1 : nextRadius D t 1 1 = 2 - t := by
    unfold nextRadius clip
    rw [max_eq_left (by linarith), min_eq_left (by linarith)]; ring
  have low : ∀ a ≤ (1 / 2 : ℝ), nextRadius D t 1 a = 1 := fun a ha => by
    unfold nextRadius clip
    rw [max_eq_right (by linarith), min_eq_left (by linarith)]
  have e3 : nextRadius D t (2 - t) 1 = 3 - 2 * t := by
    unfold nextRadius clip
    rw [max_eq_left (by linarith), min_eq_left (by linarith)]; ring
  have e4 : 1 ≤ nextRadius D t (2 - t) b ∧ nextRadius D t (2 - t) b < 3 / 2 := by
    unfold nextRadius clip
    exact ⟨le_min (le_max_right _ _) (by linarith),
      lt_of_le_of_lt (min_le_left _ _) (max_lt (by linarith) (by norm_num))⟩
  rw [e1, low a ha, e3, e1, low b hb]
  exact ⟨hP1 _ le_rfl (by norm_num), hP1 _ (by linarith) (by linarith), hP1 _ le_rfl (by norm_num),
    hP2 _ (by linarith) (by linarith), hP1 _ e4.1 e4.2, hP1 _ (by linarith) (by linarith),
    hP1 _ le_rfl (by norm_num)⟩

theorem small_three {p q tiny : ℝ} (hp0 : 0 < p) (hp : p ≤ 1 / 2) (hq : p * (1 - p) ≤ q - p)
    (ht : 224 * tiny < (p / 56) ^ 4 * p ^ 2) :
    7 * p * (p / 56) ^ 5 + 5 * (p / 56) ^ 7 + 14 * tiny < (p / 56) ^ 4 * p * (1 - p) * (q - p) := by
  set W := (p / 56) ^ 4 with hW
  have w4 : 0 < W := by positivity
  have h0 : 0 < W * p ^ 2 := by positivity
  have h1 : (1 / 4 : ℝ) ≤ (1 - p) * (1 - p) := by nlinarith
  have h2 : W * p ^ 2 * (1 / 4) ≤ W * p ^ 2 * ((1 - p) * (1 - p)) := mul_le_mul_of_nonneg_left h1 h0.le
  have h3 : W * p * (1 - p) * (p * (1 - p)) ≤ W * p * (1 - p) * (q - p) :=
    mul_le_mul_of_nonneg_left hq (mul_nonneg (by positivity) (by linarith))
  have e1 : W * p * (1 - p) * (p * (1 - p)) = W * p ^ 2 * ((1 - p) * (1 - p)) := by ring
  have e2 : 7 * p * (p / 56) ^ 5 = W * p ^ 2 * (1 / 8) := by rw [hW]; ring
  have e3 : 5 * (p / 56) ^ 7 = W * p ^ 2 * (5 / 175616 * p) := by rw [hW]; ring
  have h4 : W * p ^ 2 * (5 / 175616 * p) ≤ W * p ^ 2 * (1 / 16) :=
    mul_le_mul_of_nonneg_left (by linarith) h0.le
  rw [e2, e3]
  linarith

/-- **C113 (refuted for adaptive GWG).** For every dimension `D ≥ 2`, every requested rate between 1/2 and 3/4, every
balancing function and every number `L ≥ 4` of temperature steps. -/
theorem gwgAdaptive_ais_biased (hD : 2 ≤ D) {t tiny : ℝ} (ht1 : 1 / 2 < t) (ht2 : t < 3 / 4) (ht : 0 ≤ tiny)
    (hsmall : 2202927104 * (D : ℝ) ^ 6 * tiny < 1) (h : ℝ → ℝ) {L : ℕ} (hL : 4 ≤ L) (i : Fin D) :
    pathMean (validStates 2 D) (siteScore (1 / D / 56) L i 0) (fun _ => gwgLaws h fun _ _ => 0)
        (fun k => gwgMove (by omega) t tiny h (siteScore (1 / D / 56) L i ((k + 1 : ℕ) / (L : ℝ))) fun _ _ => 0)
        (aisEstimate (siteScore (1 / D / 56) L i) L) L gwgAdaptiveInit <
      normaliser (validStates 2 D) (siteScore (1 / D / 56) L i 1) /
        normaliser (validStates 2 D) (siteScore (1 / D / 56) L i 0) := by
  have hDr : (2 : ℝ) ≤ D := by exact_mod_cast hD
  have hDp : (0 : ℝ) < D := by linarith
  have hp0 : 0 < 1 / (D : ℝ) := by positivity
  have hp1 : 1 / (D : ℝ) ≤ 1 / 2 := one_div_le_one_div_of_le (by norm_num) hDr
  refine ais_site_lt (w := 1 / D / 56) (step := fun f => gwgMove (by omega) t tiny h f fun _ _ => 0) ht (by positivity)
    (by linarith) (by omega) (fun f => gwg_siteSampler (by omega) t tiny h f i) gwgAdaptiveInit ?_
  obtain ⟨a0, a1, a2, a3, a4, a5, a6⟩ := nextRadius_three_le hD ht1 ht2 (a := 1 / D / 56) (b := (1 / D / 56) ^ 2)
    (by linarith) (by nlinarith) (P := gwgFlipProb D)
    (p := 1 / (D : ℝ)) (q := 1 - (1 - 1 / (D : ℝ)) ^ 2)
    (fun r h1 h2 => by unfold gwgFlipProb; rw [numFlips_one (by omega) h1 h2]; ring)
    (fun r h1 h2 => by unfold gwgFlipProb; rw [numFlips_two hD h1 h2])
  refine siteAIS_lt_three ht (by positivity) (by linarith) (fun r => ?_) a0 a1 a2 a3 a4 a5 a6 ?_ hL
  · unfold gwgFlipProb
    have h1 : 0 ≤ 1 - 1 / (D : ℝ) := by linarith
    have h2 := pow_nonneg h1 (numFlips D r)
    have h3 := pow_le_one₀ (n := numFlips D r) h1 (by linarith)
    constructor <;> linarith
  · refine small_three hp0 hp1 (le_of_eq (by ring)) ?_
    have : (1 / (D : ℝ) / 56) ^ 4 * (1 / D) ^ 2 = 1 / (9834496 * (D : ℝ) ^ 6) := by field_simp; norm_num
    rw [this, lt_div_iff₀ (by positivity)]
    linarith

/-- With the configured rate and the code's offset, for samples of at most 250 sites. -/
theorem gwgAdaptive_ais_biased_default (hD : 2 ≤ D) (hD' : (D : ℝ) ≤ 250) (h : ℝ → ℝ) {L : ℕ} (hL : 4 ≤ L)
    (i : Fin D) : ∃ w : ℝ, 0 < w ∧ ¬ AISUnbiased (validStates 2 D) (siteScore w L i) L
      (fun _ => gwgLaws h fun _ _ => 0)
      (fun k => gwgMove (by omega) 0.574 mhTiny h (siteScore w L i ((k + 1 : ℕ) / (L : ℝ))) fun _ _ => 0)
      gwgAdaptiveInit := by
  have hDp : (0 : ℝ) < D := by have : 0 < D := by omega
                               exact_mod_cast this
  refine ⟨1 / D / 56, by positivity, fun hu => ?_⟩
  refine absurd hu (gwgAdaptive_ais_biased hD (by norm_num) (by norm_num) mhTiny_nonneg ?_ h hL i).ne
  have : (D : ℝ) ^ 6 ≤ 250 ^ 6 := pow_le_pow_left₀ hDp.le hD' 6
  unfold mhTiny
  norm_num at this ⊢
  linarith

/-- **C113 (refuted for the adaptive path-auxiliary sampler).** -/
theorem pafsAdaptive_ais_biased (hD : 2 ≤ D) {t tiny : ℝ} (ht1 : 1 / 2 < t) (ht2 : t < 3 / 4) (ht : 0 ≤ tiny)
    (hsmall : 2202927104 * (D : ℝ) ^ 6 * tiny < 1) (h : ℝ → ℝ) {L : ℕ} (hL : 4 ≤ L) (i : Fin D) :
    pathMean (Ω := fun _ : LBState => Equiv.Perm (Fin D)) (validStates 2 D) (siteScore (1 / D / 56) L i 0)
        (fun _ => pafsLaws h fun _ _ => 0)
        (fun k => pafsMove t tiny h (siteScore (1 / D / 56) L i ((k + 1 : ℕ) / (L : ℝ))) fun _ _ => 0)
        (aisEstimate (siteScore (1 / D / 56) L i) L) L (pafsInit 1) <
      normaliser (validStates 2 D) (siteScore (1 / D / 56) L i 1) /
        normaliser (validStates 2 D) (siteScore (1 / D / 56) L i 0) := by
  have hDr : (2 : ℝ) ≤ D := by exact_mod_cast hD
  have hDp : (0 : ℝ) < D := by linarith
  have hp0 : 0 < 1 / (D : ℝ) := by positivity
  have hp1 : 1 / (D : ℝ) ≤ 1 / 2 := one_div_le_one_div_of_le (by norm_num) hDr
  refine ais_site_lt (Ω := fun _ : LBState => Equiv.Perm (Fin D)) (w := 1 / D / 56)
    (step := fun f => pafsMove t tiny h f fun _ _ => 0) ht (by positivity)
    (by linarith) (by omega) (fun f => pafs_siteSampler (by omega) t tiny h f i) (pafsInit 1) ?_
  have hrad : (pafsInit 1).radius = 1 := by simp [pafsInit]
  rw [hrad]
  obtain ⟨a0, a1, a2, a3, a4, a5, a6⟩ := nextRadius_three_le hD ht1 ht2 (a := 1 / D / 56) (b := (1 / D / 56) ^ 2)
    (by linarith) (by nlinarith) (P := pafsFlipProb D)
    (p := 1 / (D : ℝ)) (q := 2 / (D : ℝ))
    (fun r h1 h2 => by unfold pafsFlipProb; rw [numFlips_one (by omega) h1 h2]; norm_num)
    (fun r h1 h2 => by unfold pafsFlipProb; rw [numFlips_two hD h1 h2]; norm_num)
  refine siteAIS_lt_three ht (by positivity) (by linarith) (fun r => ?_) a0 a1 a2 a3 a4 a5 a6 ?_ hL
  · unfold pafsFlipProb
    have h1 : (numFlips D r : ℝ) ≤ D := by exact_mod_cast numFlips_le r
    exact ⟨by positivity, (div_le_one hDp).2 h1⟩
  · have e : 2 / (D : ℝ) = 2 * (1 / D) := by ring
    refine small_three hp0 hp1 (by rw [e]; nlinarith) ?_
    have : (1 / (D : ℝ) / 56) ^ 4 * (1 / D) ^ 2 = 1 / (9834496 * (D : ℝ) ^ 6) := by field_simp; norm_num
    rw [this, lt_div_iff₀ (by positivity)]
    linarith

/-- With the configured rate and the code's offset, for samples of at most 250 sites. -/
theorem pafsAdaptive_ais_biased_default (hD : 2 ≤ D) (hD' : (D : ℝ) ≤ 250) (h : ℝ → ℝ) {L : ℕ} (hL : 4 ≤ L)
    (i : Fin D) : ∃ w : ℝ, 0 < w ∧ ¬ AISUnbiased (Ω := fun _ : LBState => Equiv.Perm (Fin D)) (validStates 2 D)
      (siteScore w L i) L (fun _ => pafsLaws h fun _ _ => 0)
      (fun k => pafsMove 0.574 mhTiny h (siteScore w L i ((k + 1 : ℕ) / (L : ℝ))) fun _ _ => 0) (pafsInit 1) := by
  have hDp : (0 : ℝ) < D := by have : 0 < D := by omega
                               exact_mod_cast this
  refine ⟨1 / D / 56, by positivity, fun hu => ?_⟩
  refine absurd hu (pafsAdaptive_ais_biased hD (by norm_num) (by norm_num) mhTiny_nonneg ?_ h hL i).ne
  have : (D : ℝ) ^ 6 ≤ 250 ^ 6 := pow_le_pow_left₀ hDp.le hD' 6
  unfold mhTiny
  norm_num at this ⊢
  linarith

/-! ## Instances -/

/-- The random walk without adaptation on three sites with three categories, radius 2, seven steps. -/
example : AISUnbiased (validStates 3 3) (fun β x => β * (x 0 : ℝ) * (x 1 : ℝ)) 7 (fun _ => rwLaws 3)
    (fun k => rwMove false 0.234 0 (fun x => ((k + 1 : ℕ) / ((7 : ℕ) : ℝ)) * (x 0 : ℝ) * (x 1 : ℝ)) 3) ⟨0, 0, 2, none⟩ :=
  rw_fixed_ais 0.234 (fun β x => β * (x 0 : ℝ) * (x 1 : ℝ)) (by norm_num) (by norm_num) ⟨0, 0, 2, none⟩ (by norm_num)
    (by norm_num)

/-- Binary images of 28 x 28 sites, the settings of the configuration files, 10000 steps. -/
example (i : Fin 784) : ∃ w : ℝ, 0 < w ∧ ¬ AISUnbiased (Ω := fun _ : DState => Fin 784 → Bool) (validStates 2 784)
    (siteScore w 10000 i) 10000
    (fun _ => dmalaFlipLaw ⟨true, false, 1, 0.574, 100, 20, 3, "interpolate"⟩ (fun r => r / 2) fun _ _ => 0)
    (fun k => dmalaMove ⟨true, false, 1, 0.574, 100, 20, 3, "interpolate"⟩ mhTiny llEps (fun r => r / 2)
      (siteScore w 10000 i ((k + 1 : ℕ) / ((10000 : ℕ) : ℝ))) fun _ _ => 0) dInit :=
  dmalaAdaptive_ais_biased_default (by norm_num) (by norm_num) ⟨rfl, rfl⟩ (by norm_num) rfl (by norm_num)
    (by norm_num) i

example (i : Fin 784) : ∃ w : ℝ, 0 < w ∧ ¬ AISUnbiased (Ω := fun _ : DState => Fin 784 → Bool) (validStates 2 784)
    (siteScore w 10000 i) 10000
    (fun _ => dlmcFlipLaw ⟨true, false, 1, 0.574, 100, 20, 3, "interpolate"⟩ (fun r => r / 2) fun _ _ => 0)
    (fun k => dlmcMove ⟨true, false, 1, 0.574, 100, 20, 3, "interpolate"⟩ mhTiny llEps (fun r => r / 2)
      (siteScore w 10000 i ((k + 1 : ℕ) / ((10000 : ℕ) : ℝ))) fun _ _ => 0) dInit :=
  dlmcAdaptive_ais_biased_default (by norm_num) (by norm_num) ⟨rfl, rfl⟩ rfl (by norm_num) rfl rfl (by norm_num)
    (by norm_num) i

example (i : Fin 784) : ∃ w : ℝ, 0 < w ∧ ¬ AISUnbiased (Ω := fun _ : DState => Fin 784 → Bool) (validStates 2 784)
    (siteScore w 10000 i) 10000
    (fun _ => dlmcFlipLaw ⟨true, false, 1, 0.574, 100, 20, 3, "euler_forward"⟩ logSigmoid fun _ _ => 0)
    (fun k => dlmcMove ⟨true, false, 1, 0.574, 100, 20, 3, "euler_forward"⟩ mhTiny llEps logSigmoid
      (siteScore w 10000 i ((k + 1 : ℕ) / ((10000 : ℕ) : ℝ))) fun _ _ => 0) dInit :=
  dlmcEuler_ais_biased_default (by norm_num) (by norm_num) ⟨rfl, rfl⟩ rfl (by norm_num) rfl rfl (by norm_num) i

/-- Binary images of 15 x 15 sites. -/
example (i : Fin 225) : ∃ w : ℝ, 0 < w ∧ ¬ AISUnbiased (validStates 2 225) (siteScore w 10000 i) 10000
    (fun _ => gwgLaws (fun r => r / 2) fun _ _ => 0)
    (fun k => gwgMove (by omega) 0.574 mhTiny (fun r => r / 2)
      (siteScore w 10000 i ((k + 1 : ℕ) / ((10000 : ℕ) : ℝ))) fun _ _ => 0) gwgAdaptiveInit :=
  gwgAdaptive_ais_biased_default (by norm_num) (by norm_num) _ (by norm_num) i

end Discs
