import Verif.Props.BuildModel
import Verif.Props.InitSamples
import Verif.Props.AIS

/-!
# C106, C113: runs of the sampler built from a configuration

What C106 says of a run from a random initial sample, and C53 of the annealed estimate of `log Z`, for every sound
sampler that a configuration can build, along a given sequence of sampler states (no adaptation to the run).
-/

namespace Discs

open Finset Spec

variable {D C : ℕ}

theorem validStates_nonempty (hC : 0 < C) : (validStates C D).Nonempty :=
  ⟨fun _ => 0, by rw [mem_validStates]; exact fun j => ⟨le_rfl, by exact_mod_cast hC⟩⟩

/-- **C106 (any built sampler).** A run of a sound built sampler from any valid initial law holds a valid sample at
every step, and one step brings it at most `2e-24 + 2 dim · 1e-32` further from the target. -/
theorem built_run_from_init {c : RunCfg} {b : Built} (hb : buildSampler c = .ok b) (hcats : b.cats = C) (hD : 0 < D)
    (hC : 2 ≤ C) (hs : Sound b.cls C) {M : ModelIface D C} (hM : Coherent M) (st : ℕ → SamplerState)
    (hst : ∀ t, Legal b.cls D (st t)) {K : ℕ → (Fin D → ℤ) → (Fin D → ℤ) → ℝ}
    (hK : ∀ t, b.cls.kernel M (st t) = some (K t)) {μ : (Fin D → ℤ) → ℝ} (hμ : IsLawOn (validStates C D) μ) (n : ℕ) :
    IsLawOn (validStates C D) (startLaw (validStates C D) μ K n) ∧
    l1 (validStates C D) (startLaw (validStates C D) μ K (n + 1)) (target (validStates C D) fun x => Real.exp (M.f x)) ≤
      l1 (validStates C D) (startLaw (validStates C D) μ K n) (target (validStates C D) fun x => Real.exp (M.f x)) +
        (2 * mhTiny + 2 * D * llEps) := by
  have hsto : ∀ t, Stochastic (validStates C D) (K t) := fun t =>
    (built_targets hb hcats hD hC hs M (st t) (hst t) (hK t)).1
  refine ⟨startLaw_isLaw hμ hsto n, startLaw_nearer hμ hsto
    (sum_pos (fun _ _ => Real.exp_pos _) (validStates_nonempty (by omega))) n ?_⟩
  exact nearlyInvariant_congr_target (fun x hx => by rw [coherent_energy hb hcats hM (hK n) hx])
    (built_targets hb hcats hD hC hs M (st n) (hst n) (hK n)).2

/-- **C113 (any built sampler, no adaptation to the run).** Any annealing path of models on which the samplers agree:
every entry of the reported `log Z` has an exponential whose expectation differs from the ratio of the partition
functions by the cost of the offsets only. -/
theorem built_ais {Ω : Type*} [Fintype Ω] {c : RunCfg} {b : Built} (hb : buildSampler c = .ok b) (hcats : b.cats = C)
    (hD : 0 < D) (hC : 2 ≤ C) (hs : Sound b.cls C) {M : ℝ → ModelIface D C} (hM : ∀ β, Coherent (M β)) {L : ℕ}
    (st : ℕ → SamplerState) (hst : ∀ k, Legal b.cls D (st k)) {K : ℕ → (Fin D → ℤ) → (Fin D → ℤ) → ℝ}
    (hK : ∀ k, b.cls.kernel (M ((k + 1 : ℕ) / (L : ℝ))) (st k) = some (K k)) {r : ℝ}
    (hr : ∀ k < L, ∀ x ∈ validStates C D, |(M ((k + 1 : ℕ) / (L : ℝ))).f x - (M ((k : ℕ) / (L : ℝ))).f x| ≤ r)
    {B : ℕ} (hB : 0 < B) (P : Ω → ℝ) (w : Ω → Fin (L + 1) → Fin B → validStates C D)
    (hlaw : ∀ b (path : Fin (L + 1) → validStates C D), law P (fun ω i => w ω i b) path =
      pathProb (fun x => Real.exp ((M 0).f x) / normaliser (validStates C D) (M 0).f) K L
        fun i => (path i : Fin D → ℤ))
    (n : ℕ) (hn : n < L) :
    |∑ ω, P ω * Real.exp ((aisLoop (fun β => (M β).f) L
        (fun k b => (w ω ⟨min k L, by omega⟩ b : Fin D → ℤ)) L).logZ.getD n 0) -
      normaliser (validStates C D) (M ((n + 1 : ℕ) / (L : ℝ))).f / normaliser (validStates C D) (M 0).f| ≤
      (n + 1 : ℕ) * (2 * mhTiny + 2 * D * llEps) * Real.exp ((n + 1 : ℕ) * r) := by
  have ht := mhTiny_nonneg
  have hl := llEps_nonneg
  have hT := fun k => built_targets hb hcats hD hC hs (M ((k + 1 : ℕ) / (L : ℝ))) (st k) (hst k) (hK k)
  exact ais_nearly_unbiased hB (validStates_nonempty (by omega)) (fun β => (M β).f) L K (by positivity)
    (fun k _ => (hT k).1) hr (fun k _ => nearlyInvariant_congr_target
      (fun x hx => by rw [coherent_energy hb hcats (hM _) (hK k) hx]) (hT k).2) P w hlaw n hn

/-- **C113 (image models).** A binary image model with a network bounded by `R`, annealed from its data mean in `L`
steps with any sound built sampler whose state is not adapted to the run: the exponential of the last reported `log Z`
has expectation within `L (2e-24 + 2 dim · 1e-32) exp R` of the partition function. -/
theorem built_image_ais {Ω : Type*} [Fintype Ω] {c : RunCfg} {b : Built} (hb : buildSampler c = .ok b)
    (hcats : b.cats = 2) (hD : 0 < D) (hs : Sound b.cls 2) {m : Fin D → ℝ} (hm : ∀ i, 0 < m i ∧ m i < 1)
    (net : (Fin D → ℝ) → ℝ) {R : ℝ} (hR : ∀ x ∈ validStates 2 D, |net fun j => (x j : ℝ)| ≤ R) {L : ℕ} (hL : 0 < L)
    (st : ℕ → SamplerState) (hst : ∀ k, Legal b.cls D (st k)) {K : ℕ → (Fin D → ℤ) → (Fin D → ℤ) → ℝ}
    (hK : ∀ k, b.cls.kernel (imageIface 0 (some m) net (some ((k + 1 : ℕ) / (L : ℝ)))) (st k) = some (K k))
    {B : ℕ} (hB : 0 < B) (P : Ω → ℝ) (w : Ω → Fin (L + 1) → Fin B → validStates 2 D)
    (hlaw : ∀ b (path : Fin (L + 1) → validStates 2 D), law P (fun ω i => w ω i b) path =
      pathProb (bernoulliProb m) K L fun i => (path i : Fin D → ℤ)) :
    |∑ ω, P ω * Real.exp ((aisLoop (fun β => imageForward 0 (some m) (fun x => net fun j => (x j : ℝ)) (some β)) L
        (fun k b => (w ω ⟨min k L, by omega⟩ b : Fin D → ℤ)) L).logZ.getD (L - 1) 0) -
      ∑ x ∈ validStates 2 D, bernoulliProb m x * Real.exp (net fun j => (x j : ℝ))| ≤
      L * (2 * mhTiny + 2 * D * llEps) * Real.exp R := by
  set net' : (Fin D → ℤ) → ℝ := fun x => net fun j => (x j : ℝ) with hnet
  have hZ : normaliser (validStates 2 D) (imageForward 0 (some m) net' (some 0)) = 1 := by
    unfold normaliser
    rw [← bernoulliProb_sum m]
    exact sum_congr rfl fun x hx => image_base m hm net' x hx
  have hdiff : ∀ (a β : ℝ) x, imageForward 0 (some m) net' (some a) x - imageForward 0 (some m) net' (some β) x =
      (a - β) * net' x := fun a β x => by simp only [imageForward]; ring
  have hL' : (0 : ℝ) < L := by exact_mod_cast hL
  have h := built_ais (M := fun β => imageIface 0 (some m) net (some β)) (r := R / L) hb hcats hD le_rfl hs
    (fun β => image_coherent 0 (some m) net (some β)) st hst hK (fun k _ x hx => by
      show |imageForward 0 (some m) net' (some ((k + 1 : ℕ) / (L : ℝ))) x -
        imageForward 0 (some m) net' (some ((k : ℕ) / (L : ℝ))) x| ≤ R / L
      rw [hdiff, abs_mul, ← sub_div, show ((k + 1 : ℕ) : ℝ) - (k : ℕ) = 1 by push_cast; ring,
        abs_of_pos (by positivity), one_div, div_eq_inv_mul]
      exact mul_le_mul_of_nonneg_left (hR x hx) (by positivity))
    hB P w (fun b' path => by
      rw [hlaw b' path]
      show pathProb _ K L _ = pathProb (fun x => Real.exp (imageForward 0 (some m) net' (some 0) x) /
        normaliser (validStates 2 D) (imageForward 0 (some m) net' (some 0))) K L _
      unfold pathProb
      rw [hZ]
      simp only [div_one]
      rw [image_base m hm net' _ (path 0).2]) (L - 1) (by omega)
  have e1 : normaliser (validStates 2 D) (imageForward 0 (some m) net' (some 1)) =
      ∑ x ∈ validStates 2 D, bernoulliProb m x * Real.exp (net' x) := by
    refine sum_congr rfl fun x hx => ?_
    rw [← image_base m hm net' x hx, ← Real.exp_add]
    congr 1
    have := hdiff 1 0 x
    linarith
  have hn : L - 1 + 1 = L := by omega
  simp only [hn] at h
  rw [div_self hL'.ne', mul_div_cancel₀ _ hL'.ne'] at h
  change |_ - normaliser (validStates 2 D) (imageForward 0 (some m) net' (some 1)) /
    normaliser (validStates 2 D) (imageForward 0 (some m) net' (some 0))| ≤ _ at h
  rw [hZ, div_one, e1] at h
  exact h

/-- Concrete case: the random walk without adaptation, built for images of 2 x 2 pixels, two flips per step, on a
network that rewards equal corner pixels; `Ω` is the set of paths of one chain. -/
example (L : ℕ) (hL : 0 < L) :
    let cfg : RunCfg := { shape := some [2, 2], numCategories := some 2, coOpt := some false, name := "randomwalk",
                          adaptive := some false, target := some (237 / 1000) }
    let net : (Fin 4 → ℝ) → ℝ := fun x => x 0 * x 3
    let K := fun k : ℕ => rwKernel false ((237 / 1000 : ℚ) : ℝ) mhTiny
      (imageIface 0 (some fun _ => 1 / 2) net (some ((k + 1 : ℕ) / (L : ℝ)))).f 2 ⟨0, 0, 2, none⟩
    (∃ b, buildSampler cfg = .ok b ∧ b.cats = 2) ∧
    |∑ ω : Fin (L + 1) → validStates 2 4, pathProb (bernoulliProb fun _ => 1 / 2) K L (fun i => (ω i : Fin 4 → ℤ)) *
        Real.exp ((aisLoop (fun β => imageForward 0 (some fun _ => 1 / 2) (fun x => net fun j => (x j : ℝ)) (some β)) L
          (fun k (_ : Fin 1) => (ω ⟨min k L, by omega⟩ : Fin 4 → ℤ)) L).logZ.getD (L - 1) 0) -
      ∑ x ∈ validStates 2 4, bernoulliProb (fun _ => 1 / 2) x * Real.exp (net fun j => (x j : ℝ))| ≤
      L * (2 * mhTiny + 2 * (4 : ℕ) * llEps) * Real.exp 1 := by
  intro cfg net K
  have hb : buildSampler cfg = .ok ⟨[2, 2], 2, .randomWalk false (237 / 1000)⟩ := rfl
  refine ⟨⟨_, hb, rfl⟩, ?_⟩
  exact built_image_ais hb rfl (by norm_num) trivial (fun _ => by norm_num) net (R := 1) (fun x hx => by
      have h := fun j => valid_binary hx j
      simp only [net]
      rcases h 0 with h0 | h0 <;> rcases h 3 with h3 | h3 <;> simp [h0, h3]) hL (fun _ => .walk ⟨0, 0, 2, none⟩)
    (fun _ => ⟨by norm_num, by norm_num⟩) (fun _ => rfl) one_pos _ (fun (ω : Fin (L + 1) → validStates 2 4) i (_ : Fin 1) => ω i)
    (fun b path => by simp only [law, Finset.sum_ite_eq', Finset.mem_univ, if_true]; rfl)

/-- Concrete case: the same sampler started from fair bits. -/
example (n : ℕ) :
    let S := validStates 2 4
    let M := imageIface 0 none (fun x : Fin 4 → ℝ => x 0 * x 3) none
    let P := startLaw S (initRandint 2 4) fun _ => rwKernel false ((237 / 1000 : ℚ) : ℝ) mhTiny M.f 2 ⟨0, 0, 2, none⟩
    l1 S (P (n + 1)) (target S fun x => Real.exp (M.f x)) ≤
      l1 S (P n) (target S fun x => Real.exp (M.f x)) + (2 * mhTiny + 2 * (4 : ℕ) * llEps) := by
  let cfg : RunCfg := { shape := some [2, 2], numCategories := some 2, coOpt := some false, name := "randomwalk",
                        adaptive := some false, target := some (237 / 1000) }
  have hb : buildSampler cfg = .ok ⟨[2, 2], 2, .randomWalk false (237 / 1000)⟩ := rfl
  exact (built_run_from_init hb rfl (by norm_num) le_rfl trivial (image_coherent 0 none _ none)
    (fun _ => .walk ⟨0, 0, 2, none⟩) (fun _ => ⟨by norm_num, by norm_num⟩) (fun _ => rfl)
    (initRandint_uniform two_pos).1 n).2

end Discs
