import Verif.Props.Anneal

/-!
# Property C109: the best score an annealed run reports
-/

namespace Discs

open Finset Spec

variable {D B : ℕ}

/-- Chains that make such steps independently all miss `A` with at most this probability. -/
theorem nearFresh_batch_miss {X : Type*} [DecidableEq X] {S A : Finset X} {π : X → ℝ} {K : X → X → ℝ} {a ρ : ℝ}
    (h : NearFresh S π K a ρ) (hA : A ⊆ S) {x : Fin B → X} (hx : x ∈ prodStates B S) :
    mass (prodKernel K x) (prodStates B S \ (prodStates B S).filter fun y => ∃ b, y b ∈ A) ≤
      (1 - (a * mass (target S π) A - ρ)) ^ B := by
  have e : prodStates B S \ (prodStates B S).filter (fun y => ∃ b, y b ∈ A) =
      Fintype.piFinset fun _ : Fin B => S \ A := by
    ext y
    simp only [mem_sdiff, mem_prodStates, mem_filter, Fintype.mem_piFinset]
    constructor
    · rintro ⟨h1, h2⟩ b
      exact ⟨h1 b, fun hb => h2 ⟨h1, b, hb⟩⟩
    · intro h1
      exact ⟨fun b => (h1 b).1, fun ⟨_, b, hb⟩ => (h1 b).2 hb⟩
  have hx' := mem_prodStates.1 hx
  rw [e]
  unfold mass prodKernel
  rw [Finset.sum_prod_piFinset (S \ A) fun b y => K (x b) y]
  calc ∏ b, ∑ y ∈ S \ A, K (x b) y ≤ ∏ _b : Fin B, (1 - (a * mass (target S π) A - ρ)) := by
        refine Finset.prod_le_prod (fun b _ => Finset.sum_nonneg fun y _ => h.stoch.1 _ (hx' b) y) fun b _ => ?_
        have h1 := h.hit hA (x b) (hx' b)
        have h2 := h.stoch.2.1 (x b) (hx' b)
        rw [← Finset.sum_sdiff hA] at h2
        unfold mass at h1
        unfold mass
        linarith
    _ = (1 - (a * mass (target S π) A - ρ)) ^ B := by simp

/-- A driver of the experiment loops whose steps yield the recorded batches `v 0, v 1, …`, for one instance
with score `E` and reference value `ref`. -/
def replay {L : ℕ} (v : Fin L → Fin B → Fin D → ℤ) (E : (Fin D → ℤ) → ℝ) (temp : ℤ → ℝ) (ref : ℝ) :
    CODriver Unit (Fin B → Fin D → ℤ) ℕ (Fin D → ℤ) 1 B where
  foldIn k _ := k
  stp _ _ x n := (if h : n < L then v ⟨n, h⟩ else x, n + 1)
  temp := temp
  scores x _ b := E (x b)
  rows x _ b := x b
  ref _ := ref
  sampleIdx _ := 0

theorem replay_traj {L : ℕ} (v : Fin L → Fin B → Fin D → ℤ) (E : (Fin D → ℤ) → ℝ) (temp : ℤ → ℝ) (ref : ℝ)
    (x : Fin B → Fin D → ℤ) (n : ℕ) :
    ((replay v E temp ref).traj () x 0 n).2 = n ∧
      ∀ h : n < L, ((replay v E temp ref).traj () x 0 (n + 1)).1 = v ⟨n, h⟩ := by
  have h1 : ∀ n, ((replay v E temp ref).traj () x 0 n).2 = n := by
    intro n
    induction n with
    | zero => rfl
    | succ n ih =>
      show ((replay v E temp ref).traj () x 0 n).2 + 1 = n + 1
      rw [ih]
  refine ⟨h1 n, fun h => ?_⟩
  show (if h : ((replay v E temp ref).traj () x 0 n).2 < L then v ⟨_, h⟩ else _) = v ⟨n, h⟩
  have := h1 n
  rw [dif_pos (by rw [this]; exact h)]
  congr 1
  exact Fin.ext this

/-- If a logged step holds an optimum, the experiment reports the optimum. -/
theorem replay_best [NeZero B] {L : ℕ} (v : Fin L → Fin B → Fin D → ℤ) {E : (Fin D → ℤ) → ℝ} (temp : ℤ → ℝ)
    {ref : ℝ} (href : 0 < ref) {logEvery : ℕ} {ratio : ℝ} (h0 : 0 ≤ ratio) (h1 : ratio ≤ 1)
    (zero : Fin D → ℤ) (x : Fin B → Fin D → ℤ) {S : Finset (Fin D → ℤ)} {z : Fin D → ℤ} (hz : z ∈ S)
    (hbest : (coChain (replay v E temp ref) logEvery L ratio zero () x 0).best 0 < E z / ref) :
    ∀ i : Fin L, logEvery ∣ (i : ℕ) + 1 → ∀ b, v i b ∉ optima S E := by
  intro i hi b hb
  have hg := co_best (replay v E temp ref) logEvery L ratio h0 h1 zero () x 0 0 href
  have hmem : E (v i b) / ref ∈ loggedRatios (replay v E temp ref) logEvery () x 0 L 0 := by
    refine ⟨i + 1, by omega, by omega, by exact_mod_cast hi, b, ?_⟩
    show _ = E (((replay v E temp ref).traj () x 0 (i + 1)).1 b) / ref
    rw [(replay_traj v E temp ref x i).2 i.isLt]
  have h2 := hg.2 (Or.inr hmem)
  have h3 := (mem_optima.1 hb).2 z hz
  have h4 : E z / ref ≤ E (v i b) / ref := div_le_div_of_nonneg_right h3 href.le
  linarith

/-- The probability that an annealed run of `B` independent chains reports less than the optimum. -/
theorem nearFresh_best [NeZero B] {S : Finset (Fin D → ℤ)} {E : (Fin D → ℤ) → ℝ} {T : ℕ → ℝ}
    {K : ℕ → (Fin D → ℤ) → (Fin D → ℤ) → ℝ} {KB : ℕ → (Fin B → Fin D → ℤ) → (Fin B → Fin D → ℤ) → ℝ} {a ρ : ℝ}
    (hKB : ∀ t x y, KB t x y = prodKernel (K t) x y)
    (h : ∀ t, NearFresh S (boltz E (T (t + 1))) (K t) a ρ) {ref : ℝ} (href : 0 < ref) (logEvery L : ℕ)
    {ratio : ℝ} (h0 : 0 ≤ ratio) (h1 : ratio ≤ 1) (temp : ℤ → ℝ) (zero : Fin D → ℤ) {z : Fin D → ℤ} (hz : z ∈ S)
    {x : Fin B → Fin D → ℤ} (hx : x ∈ prodStates B S) :
    ∑ v ∈ (open Classical in (paths (prodStates B S) L).filter fun v =>
        (coChain (replay v E temp ref) logEvery L ratio zero () x 0).best 0 < E z / ref), trajProb KB L x v ≤
      ∏ i : Fin L, if logEvery ∣ (i : ℕ) + 1 then
        (1 - (a * mass (target S (boltz E (T (i + 1)))) (optima S E) - ρ)) ^ B else 1 := by
  classical
  have eKB : KB = fun t => prodKernel (K t) := by funext t x y; exact hKB t x y
  subst eKB
  have hst : ∀ t, Stochastic (prodStates B S) (prodKernel (B := B) (K t)) := fun t =>
    prodKernel_stochastic (h t).stoch
  refine le_trans (Finset.sum_le_sum_of_subset_of_nonneg (t := (paths (prodStates B S) L).filter
    (fun v => ∀ i : Fin L, logEvery ∣ (i : ℕ) + 1 → v i ∉ (prodStates B S).filter fun y => ∃ b, y b ∈ optima S E))
    ?_ ?_) (trajProb_miss L (look := fun t => logEvery ∣ t + 1)
      (c := fun i => (1 - (a * mass (target S (boltz E (T (i + 1)))) (optima S E) - ρ)) ^ B) hst
      (fun t _ y hy => nearFresh_batch_miss (h t) optima_subset hy) x hx)
  · intro v hv
    rw [@mem_filter] at hv
    rw [mem_filter]
    refine ⟨hv.1, fun i hi hmem => ?_⟩
    obtain ⟨b, hb⟩ := (mem_filter.1 hmem).2
    exact replay_best v temp href h0 h1 zero x hz hv.2 i hi b hb
  · intro v hv _
    exact trajProb_nonneg L hst x hx v (mem_filter.1 hv).1

theorem prod_logged (L k : ℕ) (c : ℝ) : (∏ i : Fin L, if k ∣ (i : ℕ) + 1 then c else 1) = c ^ (L / k) := by
  rw [Fin.prod_univ_eq_prod_range (fun i => if k ∣ i + 1 then c else 1) L, Finset.prod_ite]
  simp only [Finset.prod_const, one_pow, mul_one]
  congr 1
  exact Nat.card_multiples L k

/-- **C109 (best score, random walk).** With every schedule of positive temperatures the probability that a
run reports less than the optimum shrinks geometrically in the number of logged steps and of chains. -/
theorem rw_anneal_best [NeZero B] (adaptive : Bool) (tgt : ℝ) {tiny : ℝ} (ht : 0 ≤ tiny)
    (obj pen : (Fin D → ℤ) → ℝ) (temp : ℕ → ℝ) (hT : ∀ t, 0 < temp t) {C : ℕ} (hC : 2 ≤ C) (s : ℕ → RWState)
    {a : ℝ} (ha : 0 < a) (ha1 : a ≤ 1) (hlo : ∀ t, a * (C - 1 : ℕ) * D ≤ (s t).radius)
    (hhi : ∀ t, (s t).radius ≤ (1 - a * (C - 1 : ℕ)) * D) {ref : ℝ} (href : 0 < ref) (logEvery L : ℕ)
    {ratio : ℝ} (h0 : 0 ≤ ratio) (h1 : ratio ≤ 1) (zero : Fin D → ℤ) {z : Fin D → ℤ} (hz : z ∈ validStates C D)
    {x : Fin B → Fin D → ℤ} (hx : x ∈ prodStates B (validStates C D)) :
    ∑ v ∈ (open Classical in (paths (prodStates B (validStates C D)) L).filter fun v =>
        (coChain (replay v (fun x => obj x - pen x) (fun t => temp t.toNat) ref) logEvery L ratio zero () x 0).best 0 <
          (obj z - pen z) / ref),
      trajProb (rwAnnealBatch adaptive tgt tiny obj pen temp C s) L x v ≤
      ((1 - (a ^ D / (C : ℝ) ^ D - 2 * tiny)) ^ B) ^ (L / logEvery) := by
  have hNF := fun t => rw_nearFresh adaptive tgt ht obj pen temp hC s ha hlo hhi t
  refine (nearFresh_best (K := rwAnneal adaptive tgt tiny obj pen temp C s)
    (fun t x y => rw_batch adaptive tgt tiny (annealEnergy obj pen temp t) C (s t) x y) hNF href logEvery L h0 h1
    (fun t => temp t.toNat) zero hz hx).trans ?_
  rw [← prod_logged]
  have hz' : (validStates C D).Nonempty := ⟨z, hz⟩
  have ha0 : 0 ≤ a ^ D := by positivity
  have haD : a ^ D ≤ 1 := pow_le_one₀ ha.le ha1
  have key : ∀ t, a ^ D / (C : ℝ) ^ D ≤ a ^ D *
      mass (target (validStates C D) (boltz (fun x => obj x - pen x) (temp t)))
        (optima (validStates C D) fun x => obj x - pen x) := by
    intro t
    have := mass_optima_ge_uniform hz' (fun x => obj x - pen x) (hT t)
    rw [show ((validStates C D).card : ℝ) = (C : ℝ) ^ D by
      simp [validStates, Fintype.card_piFinset]] at this
    calc a ^ D / (C : ℝ) ^ D = a ^ D * (1 / (C : ℝ) ^ D) := by ring
      _ ≤ _ := mul_le_mul_of_nonneg_left this ha0
  have hle : ∀ t, a ^ D * mass (target (validStates C D) (boltz (fun x => obj x - pen x) (temp t)))
        (optima (validStates C D) fun x => obj x - pen x) ≤ 1 := by
    intro t
    have h1 : mass (target (validStates C D) (boltz (fun x => obj x - pen x) (temp t)))
        (optima (validStates C D) fun x => obj x - pen x) ≤ 1 := by
      rw [← sum_target (sum_boltz_pos hz' (fun x => obj x - pen x) (temp t))]
      exact Finset.sum_le_sum_of_subset_of_nonneg optima_subset fun y hy _ =>
        target_nonneg (fun w _ => (boltz_pos _ _ w).le) y hy
    exact (mul_le_mul_of_nonneg_left h1 ha0).trans (by linarith)
  refine Finset.prod_le_prod (fun i _ => ?_) fun i _ => ?_
  · split_ifs
    · exact pow_nonneg (by linarith [hle (i + 1)]) _
    · exact zero_le_one
  · split_ifs
    · exact pow_le_pow_left₀ (by linarith [hle (i + 1)]) (by linarith [key (i + 1)]) _
    · exact le_rfl

end Discs
