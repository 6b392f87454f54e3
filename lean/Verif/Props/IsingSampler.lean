import Verif.Props.BuildModel

/-!
# C111: the samplers of the Ising model

`Ising.forward` truncates its messages on the int32 chain state (C34), and is exact on the float copy of
`get_value_and_grad`.  So the samplers without gradients and the samplers with gradients work on two different
distributions.
-/

namespace Discs

open Finset Spec

variable {H W : ℕ}

namespace Spec

/-- Spin of a site of a flat 0/1 sample. -/
def spin (x : Fin (H * W) → ℤ) (p : Fin H × Fin W) : ℝ := 2 * (x (finProdFinEquiv p) : ℝ) - 1

/-- Weight of the Ising model: `exp (λ Σ_edges s s' - Σ b s)`. -/
noncomputable def isingLaw (lambdaa : ℝ) (b : Grid H W) (x : Fin (H * W) → ℤ) : ℝ :=
  Real.exp (lambdaa * ∑ e ∈ gridEdges H W, spin x e.1 * spin x e.2 - ∑ p : Fin H × Fin W, b p.1 p.2 * spin x p)

/-- Weight of independent spins in the same field. -/
noncomputable def freeSpinLaw (b : Grid H W) (x : Fin (H * W) → ℤ) : ℝ :=
  Real.exp (-∑ p : Fin H × Fin W, b p.1 p.2 * spin x p)

/-- The samplers that evaluate `forward` on the int32 state. -/
def evaluatesInt : SamplerClass → Prop
  | .gibbs | .blockGibbs _ | .hammingBall _ _ | .randomWalk _ _ | .locallyBalanced _ => True
  | _ => False

end Spec

/-- The Ising model with the couplings of `make_init_params`. -/
noncomputable def isingModel (lambdaa : ℝ) (b : Grid H W) : ModelIface (H * W) 2 :=
  isingIface (isingInitW lambdaa) (isingInitW lambdaa) b

theorem ising_float_energy (lambdaa : ℝ) (b : Grid H W) (x : Fin (H * W) → ℤ) :
    Real.exp ((isingModel lambdaa b).val x) = isingLaw lambdaa b x := by
  unfold isingModel isingIface binaryIface isingLaw
  dsimp only
  rw [ising_counts_edges_once]
  rfl

theorem ising_int_energy {lambdaa : ℝ} (hl : |lambdaa| < 1) (b : Grid H W) {x : Fin (H * W) → ℤ}
    (hx : x ∈ validStates 2 (H * W)) : Real.exp ((isingModel lambdaa b).f x) = freeSpinLaw b x := by
  unfold isingModel isingIface binaryIface freeSpinLaw
  dsimp only
  have hw : ∀ (r : Fin H) (c : Fin W), |isingInitW lambdaa r c| < 1 := fun r c => by
    rw [isingInitW, abs_neg]; exact hl
  rw [ising_int_loses_couplings _ _ b hw hw (unflat x) fun r c => valid_binary hx _, Fintype.sum_prod_type]
  simp only [spin, unflat, mul_comm]

/-- **C111 (Ising, samplers without gradients).** With `|λ| < 1` (the shipped configuration has `λ = 1/2`) a
built Gibbs, block Gibbs or random-walk sampler keeps the law of independent spins, whatever `λ` is. -/
theorem ising_integer_samplers {c : RunCfg} {bs : Built} (hb : buildSampler c = .ok bs) (hcats : bs.cats = 2)
    (hD : 0 < H * W) (hs : Sound bs.cls 2) (hi : evaluatesInt bs.cls) {lambdaa : ℝ} (hl : |lambdaa| < 1)
    (b : Grid H W) (st : ℕ → SamplerState) (hst : ∀ t, Legal bs.cls (H * W) (st t))
    {K : ℕ → (Fin (H * W) → ℤ) → (Fin (H * W) → ℤ) → ℝ}
    (hK : ∀ t, bs.cls.kernel (isingModel lambdaa b) (st t) = some (K t)) (n : ℕ) :
    NearlyInvariant (validStates 2 (H * W)) (freeSpinLaw b) (iterate (validStates 2 (H * W)) K n)
      (n * (2 * mhTiny + 2 * (H * W : ℕ) * llEps)) := by
  refine nearlyInvariant_congr_target (fun x hx => ?_)
    (built_targets_run hb hcats hD le_rfl hs (isingModel lambdaa b) st hst hK n)
  rw [← ising_int_energy hl b hx]
  revert hi
  cases bs.cls <;> simp [evaluatesInt, energy]

/-- **C111 (Ising, samplers with gradients).** A built gradient sampler keeps the law of the Ising model, for
every `λ`. -/
theorem ising_gradient_samplers {c : RunCfg} {bs : Built} (hb : buildSampler c = .ok bs) (hcats : bs.cats = 2)
    (hD : 0 < H * W) (hs : Sound bs.cls 2) (hi : ¬ evaluatesInt bs.cls) (lambdaa : ℝ)
    (b : Grid H W) (st : ℕ → SamplerState) (hst : ∀ t, Legal bs.cls (H * W) (st t))
    {K : ℕ → (Fin (H * W) → ℤ) → (Fin (H * W) → ℤ) → ℝ}
    (hK : ∀ t, bs.cls.kernel (isingModel lambdaa b) (st t) = some (K t)) (n : ℕ) :
    NearlyInvariant (validStates 2 (H * W)) (isingLaw lambdaa b) (iterate (validStates 2 (H * W)) K n)
      (n * (2 * mhTiny + 2 * (H * W : ℕ) * llEps)) := by
  refine nearlyInvariant_congr_target (fun x hx => ?_)
    (built_targets_run hb hcats hD le_rfl hs (isingModel lambdaa b) st hst hK n)
  rw [← ising_float_energy lambdaa b x]
  have hcon := (build_consistent hb).2.2
  rw [hcats] at hcon
  have h0 := hK 0
  revert h0
  revert hcon
  revert hi
  unfold SamplerClass.kernel
  cases bs.cls with
  | pathAux fn t k approx =>
    intro _ _ h0
    cases approx with
    | true => simp [energy]
    | false =>
      exfalso
      revert h0
      cases st 0 <;> simp [ModelIface.pafsLocal, isingModel, isingIface, binaryIface]
  | gwgCateg fn => intro _ h _; exact absurd rfl h
  | _ => intros; simp_all [evaluatesInt, energy]

/-! ### The two laws differ -/

theorem gridEdges_nonempty_iff : (gridEdges H W).Nonempty ↔ 2 ≤ H * W := by
  rcases H with _ | H
  · simp [Finset.nonempty_iff_ne_empty, Finset.eq_empty_of_isEmpty]
  rcases W with _ | W
  · simp [Finset.nonempty_iff_ne_empty, Finset.eq_empty_of_isEmpty]
  rw [← Finset.card_pos, card_gridEdges]
  rcases H with _ | H
  · simp; omega
  · constructor
    · intro _; nlinarith
    · intro _; positivity

theorem gridEdges_ne {e : (Fin H × Fin W) × (Fin H × Fin W)} (he : e ∈ gridEdges H W) : e.2 ≠ e.1 := by
  unfold gridEdges rightOf belowOf at he
  simp only [Finset.mem_filter, Finset.mem_univ, true_and] at he
  intro h
  rw [h] at he
  omega

/-- All spins up. -/
def allUp : Fin (H * W) → ℤ := fun _ => 1

theorem allUp_valid : (allUp : Fin (H * W) → ℤ) ∈ validStates 2 (H * W) := by
  rw [mem_validStates]; intro j; simp [allUp]

theorem spin_allUp (p : Fin H × Fin W) : spin allUp p = 1 := by
  unfold spin allUp; norm_num

/-- One spin down. -/
def oneDown (p : Fin H × Fin W) : Fin (H * W) → ℤ := Function.update allUp (finProdFinEquiv p) 0

theorem oneDown_valid (p : Fin H × Fin W) : oneDown p ∈ validStates 2 (H * W) := by
  rw [mem_validStates]; intro j
  unfold oneDown allUp Function.update
  split_ifs <;> simp

theorem spin_oneDown (p q : Fin H × Fin W) : spin (oneDown p) q = if q = p then -1 else 1 := by
  unfold spin oneDown allUp Function.update
  by_cases h : q = p
  · subst h; simp
  · have : ¬ finProdFinEquiv q = finProdFinEquiv p := fun hh => h (finProdFinEquiv.injective hh)
    simp [h, this]; norm_num

/-- **C111 (the two laws).** As soon as the lattice has an edge and `λ ≠ 0`, the law of independent spins and
the Ising law are different distributions, in every field. -/
theorem ising_laws_differ (hE : 2 ≤ H * W) {lambdaa : ℝ} (hl : lambdaa ≠ 0) (b : Grid H W) :
    0 < l1 (validStates 2 (H * W)) (target (validStates 2 (H * W)) (freeSpinLaw b))
      (target (validStates 2 (H * W)) (isingLaw lambdaa b)) := by
  obtain ⟨e, he⟩ := gridEdges_nonempty_iff.2 hE
  set S := validStates 2 (H * W)
  refine lt_of_le_of_ne (Finset.sum_nonneg fun _ _ => abs_nonneg _) fun h0 => ?_
  have heq : ∀ x ∈ S, target S (freeSpinLaw b) x = target S (isingLaw lambdaa b) x := fun x hx => by
    have := (Finset.sum_eq_zero_iff_of_nonneg fun _ _ => abs_nonneg _).1 h0.symm x hx
    exact sub_eq_zero.1 (abs_eq_zero.1 this)
  have hZ : 0 < ∑ x ∈ S, freeSpinLaw b x :=
    Finset.sum_pos (fun x _ => Real.exp_pos _) ⟨_, allUp_valid⟩
  have hZ' : 0 < ∑ x ∈ S, isingLaw lambdaa b x :=
    Finset.sum_pos (fun x _ => Real.exp_pos _) ⟨_, allUp_valid⟩
  have hr : ∀ x ∈ S, Real.exp (lambdaa * ∑ e ∈ gridEdges H W, spin x e.1 * spin x e.2) =
      (∑ x ∈ S, isingLaw lambdaa b x) / ∑ x ∈ S, freeSpinLaw b x := fun x hx => by
    have := heq x hx
    unfold target at this
    rw [div_eq_div_iff hZ.ne' hZ'.ne'] at this
    have hsplit : isingLaw lambdaa b x =
        Real.exp (lambdaa * ∑ e ∈ gridEdges H W, spin x e.1 * spin x e.2) * freeSpinLaw b x := by
      unfold isingLaw freeSpinLaw
      rw [← Real.exp_add, sub_eq_add_neg]
    rw [eq_div_iff hZ.ne']
    have hpos : 0 < freeSpinLaw b x := Real.exp_pos _
    rw [hsplit] at this
    have h2 : freeSpinLaw b x * (∑ x ∈ S, isingLaw lambdaa b x) = freeSpinLaw b x *
        (Real.exp (lambdaa * ∑ e ∈ gridEdges H W, spin x e.1 * spin x e.2) * ∑ x ∈ S, freeSpinLaw b x) := by
      rw [this]; ring
    exact (mul_left_cancel₀ hpos.ne' h2).symm
  have h1 := (hr _ allUp_valid).trans (hr _ (oneDown_valid e.1)).symm
  have h2 := mul_left_cancel₀ hl (Real.exp_injective h1)
  have hlt : ∑ e' ∈ gridEdges H W, spin (oneDown e.1) e'.1 * spin (oneDown e.1) e'.2 <
      ∑ e' ∈ gridEdges H W, spin allUp e'.1 * spin allUp e'.2 := by
    refine Finset.sum_lt_sum (fun e' _ => ?_) ⟨e, he, ?_⟩
    · rw [spin_allUp, spin_allUp, spin_oneDown, spin_oneDown]
      split_ifs <;> norm_num
    · rw [spin_allUp, spin_allUp, spin_oneDown, spin_oneDown, if_pos rfl, if_neg (gridEdges_ne he)]
      norm_num
  exact hlt.ne h2.symm

/-! ### The limit of the runs without gradients -/

/-- A run that converges to one distribution stays away from any other. -/
theorem wrong_limit {X : Type*} [DecidableEq X] {S : Finset X} {π π' : X → ℝ} {K : ℕ → X → X → ℝ} {m : ℕ}
    (hm : 0 < m) {c : ℝ} (h0 : 0 ≤ c) (h1 : c < 1) (h : ConvergesWithin S π K m c 0) {δ : ℝ} (hδ : 0 < δ) :
    ∃ N, ∀ n ≥ N, ∀ x ∈ S, l1 S (target S π) (target S π') - δ ≤ l1 S (iterate S K n x) (target S π') := by
  obtain ⟨k, hk⟩ := exists_pow_lt_of_lt_one (half_pos hδ) h1
  refine ⟨k * m, fun n hn x hx => ?_⟩
  have hkn : k ≤ n / m := (Nat.le_div_iff_mul_le hm).2 hn
  have hc : c ^ (n / m) ≤ c ^ k := pow_le_pow_of_le_one h0 h1.le hkn
  have hcl : l1 S (iterate S K n x) (target S π) ≤ δ := (h x hx n).trans (by linarith)
  have htri : l1 S (target S π) (target S π') ≤
      l1 S (iterate S K n x) (target S π) + l1 S (iterate S K n x) (target S π') := by
    unfold l1
    rw [← Finset.sum_add_distrib]
    refine Finset.sum_le_sum fun y _ => ?_
    have := abs_add_le (target S π y - iterate S K n x y) (iterate S K n x y - target S π' y)
    rw [sub_add_sub_cancel, abs_sub_comm (target S π y) (iterate S K n x y)] at this
    exact this
  linarith

theorem l1_comm {X : Type*} (S : Finset X) (p q : X → ℝ) : l1 S p q = l1 S q p :=
  Finset.sum_congr rfl fun _ _ => abs_sub_comm _ _

/-- **C111 (Gibbs on the Ising model).** With `0 < |λ| < 1` and an edge, a run of the Gibbs or of a block
Gibbs sampler approaches the law of independent spins; its distance from the Ising law has a positive limit,
wherever it starts. -/
theorem ising_gibbs_limit (hE : 2 ≤ H * W) {lambdaa : ℝ} (h0 : lambdaa ≠ 0) (hl : |lambdaa| < 1) (b : Grid H W)
    {K : ℕ → (Fin (H * W) → ℤ) → (Fin (H * W) → ℤ) → ℝ}
    (hK : (∀ t, SamplerClass.gibbs.kernel (isingModel lambdaa b)
        (.gibbs ((gibbsUpdate 2 (H * W))^[t] gibbsInit)) = some (K t)) ∨
      ∃ k, 0 < k ∧ ∀ t, (SamplerClass.blockGibbs k).kernel (isingModel lambdaa b)
        (.block ((blockGibbsUpdate 2 (H * W) k)^[t] blockInit)) = some (K t)) :
    Ergodic (validStates 2 (H * W)) (freeSpinLaw b) K ∧
    0 < l1 (validStates 2 (H * W)) (target (validStates 2 (H * W)) (freeSpinLaw b))
      (target (validStates 2 (H * W)) (isingLaw lambdaa b)) ∧
    ∀ δ > 0, ∃ N, ∀ n ≥ N, ∀ x ∈ validStates 2 (H * W),
      l1 (validStates 2 (H * W)) (target (validStates 2 (H * W)) (freeSpinLaw b))
        (target (validStates 2 (H * W)) (isingLaw lambdaa b)) - δ ≤
      l1 (validStates 2 (H * W)) (iterate (validStates 2 (H * W)) K n x)
        (target (validStates 2 (H * W)) (isingLaw lambdaa b)) := by
  have hT : target (validStates 2 (H * W)) (fun x => Real.exp ((isingModel lambdaa b).f x)) =
      fun x => Real.exp ((isingModel lambdaa b).f x) / ∑ x ∈ validStates 2 (H * W), freeSpinLaw b x := by
    funext x
    unfold target
    rw [Finset.sum_congr rfl fun x hx => ising_int_energy hl b hx]
  have hconv : ∀ {m c}, ConvergesWithin (validStates 2 (H * W))
      (fun x => Real.exp ((isingModel lambdaa b).f x)) K m c 0 →
      ConvergesWithin (validStates 2 (H * W)) (freeSpinLaw b) K m c 0 := by
    intro m c h x hx n
    refine le_trans (le_of_eq ?_) (h x hx n)
    unfold l1
    rw [hT]
    refine Finset.sum_congr rfl fun y hy => ?_
    dsimp only
    rw [ising_int_energy hl b hy]
    rfl
  have herg : Ergodic (validStates 2 (H * W)) (freeSpinLaw b) K := by
    rcases hK with hK | ⟨k, hk, hK⟩
    · obtain ⟨c, hc0, hc1, hc⟩ := gibbs_converges (isingModel lambdaa b).f (D := H * W) two_pos (by omega)
      refine ⟨H * W, by omega, c, hc0, hc1, hconv ?_⟩
      have e : K = fun t => gibbsKernel (isingModel lambdaa b).f 2 ((gibbsUpdate 2 (H * W))^[0 + t] gibbsInit) := by
        funext t
        have := hK t
        simp only [SamplerClass.kernel, Option.some.injEq] at this
        rw [← this, Nat.zero_add]
      rw [e]
      exact hc 0
    · obtain ⟨c, hc0, hc1, hc⟩ := blockGibbs_converges (isingModel lambdaa b).f (D := H * W) two_pos (by omega) hk
      refine ⟨H * W / Nat.gcd (H * W) k, Nat.div_pos (Nat.gcd_le_left _ (by omega))
        (Nat.gcd_pos_of_pos_left _ (by omega)), c, hc0, hc1, hconv ?_⟩
      have e : K = fun t => blockGibbsKernel (isingModel lambdaa b).f 2 k
          ((blockGibbsUpdate 2 (H * W) k)^[0 + t] blockInit) := by
        funext t
        have := hK t
        simp only [SamplerClass.kernel, Option.some.injEq] at this
        rw [← this, Nat.zero_add]
      rw [e]
      exact hc 0
  refine ⟨herg, ?_⟩
  obtain ⟨m, hm, c, hc0, hc1, hc⟩ := herg
  exact ⟨ising_laws_differ hE h0 b, fun δ hδ => wrong_limit hm hc0 hc1 hc hδ⟩

/-- The evaluations of the Ising model agree exactly if nothing is coupled. -/
theorem ising_coherent_iff {lambdaa : ℝ} (hl : |lambdaa| < 1) (b : Grid H W) :
    Coherent (isingModel lambdaa b) ↔ lambdaa = 0 ∨ H * W < 2 := by
  constructor
  · intro h
    by_contra hc
    push Not at hc
    have hpos := ising_laws_differ hc.2 hc.1 b
    have e : ∀ x ∈ validStates 2 (H * W), freeSpinLaw b x = isingLaw lambdaa b x := fun x hx => by
      rw [← ising_int_energy hl b hx, ← ising_float_energy, ((h x hx).1 rfl).1]
    refine absurd hpos (not_lt.2 (le_of_eq ?_))
    unfold l1 target
    rw [Finset.sum_congr rfl e]
    refine Finset.sum_eq_zero fun y hy => ?_
    rw [e y hy]; simp
  · intro h x hx
    refine ⟨fun _ => ⟨?_, by simp [isingModel, isingIface, binaryIface]⟩, fun h => absurd rfl h⟩
    refine Real.exp_injective ?_
    rw [ising_int_energy hl b hx, ising_float_energy]
    unfold isingLaw freeSpinLaw
    congr 1
    rcases h with h | h
    · simp [h]
    · have : gridEdges H W = ∅ := by
        rw [← Finset.not_nonempty_iff_eq_empty, gridEdges_nonempty_iff]; omega
      simp [this]

/-- Concrete case: the shipped model configuration (`ising_config.py`, a 50 × 50 lattice with `λ = 1/2`) and
the shipped Gibbs configuration. -/
example (b : Grid 50 50) : ∃ c ∈ shippedSampler [50, 50] 2 false, buildSampler c = .ok ⟨[50, 50], 2, .gibbs⟩ ∧
    Ergodic (validStates 2 (50 * 50)) (freeSpinLaw b) (fun t => gibbsKernel (isingModel (1 / 2) b).f 2
      ((gibbsUpdate 2 (50 * 50))^[t] gibbsInit)) := by
  refine ⟨{ shape := some [50, 50], numCategories := some 2, coOpt := some false, name := "gibbs" },
    by simp [shippedSampler], rfl, ?_⟩
  exact (ising_gibbs_limit (by norm_num) (by norm_num) (by rw [abs_of_pos] <;> norm_num) b
    (Or.inl fun t => rfl)).1

end Discs
