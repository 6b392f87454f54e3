import Verif.Props.Build
import Verif.Props.Gibbs
import Verif.Props.BlockGibbs
import Verif.Props.HammingBall
import Verif.Props.RandomWalk
import Verif.Props.LBStep
import Verif.Props.GWG
import Verif.Props.PathAux
import Verif.Props.DMALA
import Verif.Props.DLMC

/-!
# C110: the distribution kept by the sampler built from a configuration
-/

namespace Discs

open Finset Spec

/-! ### The distribution the built sampler keeps -/

/-- The sampler classes whose step keeps a target, for samples with `C` categories. -/
def Spec.Sound (cls : SamplerClass) (C : ℕ) : Prop :=
  match cls with
  | .hammingBall k _ => k = 1
  | .pathAux _ none _ _ => C = 2
  | _ => True

/-- The sampler states the claim is about: the radius of a random walk is in `[0, dim]`, a Langevin sampler
is not in the middle of choosing its step size. -/
def Spec.Legal (cls : SamplerClass) (D : ℕ) (st : SamplerState) : Prop :=
  match cls, st with
  | .randomWalk _ _, .walk s => 0 ≤ s.radius ∧ s.radius ≤ D
  | .dmala _ a, .d s => dmalaFixed a.toCfg s
  | .dlmc _ a, .d s => dlmcFixed a.toCfg s
  | _, _ => True

/-- The energy a sampler works with: `forward` on the integer state for the samplers without gradients; the
value of `get_value_and_grad` on the float copy, or on the one-hot encoding for more than two categories, for
the others; the value of `logratio_in_neighborhood` for the path auxiliary sampler with exact ratios. -/
noncomputable def Spec.energy (cls : SamplerClass) {D C : ℕ} (M : ModelIface D C) (x : Fin D → ℤ) : ℝ :=
  match cls with
  | .gibbs | .blockGibbs _ | .hammingBall _ _ | .randomWalk _ _ | .locallyBalanced _ => M.f x
  | .gwgBinary _ _ | .gwgAdaptive _ _ => M.val x
  | .gwgCateg _ => M.valHot (oneHotRow C x)
  | .pathAux _ _ _ approx =>
    if C = 2 then if approx then M.val x else (M.nb.map fun g => (g x).1).getD 0
    else if approx then M.valHot (oneHotRow C x) else (M.nbHot.map fun g => (g (oneHotRow C x)).1).getD 0
  | .dmala _ _ | .dlmc _ _ => if C = 2 then M.val x else M.valHot (oneHotRow C x)

theorem nearlyInvariant_of_iterate_one {X : Type*} [DecidableEq X] {S : Finset X} {π : X → ℝ} {K : X → X → ℝ}
    {ε : ℝ} (h : NearlyInvariant S π (iterate S (fun _ => K) 1) ((1 : ℕ) * ε)) : NearlyInvariant S π K ε := by
  rw [Nat.cast_one, one_mul] at h
  refine NearlyInvariant.congr (fun x hx y => ?_) h
  change K x y = ∑ z ∈ S, (if x = z then (1 : ℝ) else 0) * K z y
  simp [Finset.sum_ite_eq, hx]

theorem nearlyInvariant_mono {X : Type*} {S : Finset X} {π : X → ℝ} {K : X → X → ℝ} {ε ε' : ℝ}
    (hπ : ∀ x ∈ S, 0 ≤ π x) (hε : ε ≤ ε') (h : NearlyInvariant S π K ε) : NearlyInvariant S π K ε' :=
  le_trans h (mul_le_mul_of_nonneg_right hε (Finset.sum_nonneg hπ))

theorem weightOf_isSome (fn : String) :
    (weightOf fn).isSome ↔ fn ∈ ["SQRT", "RATIO", "MAX", "MIN"] := by
  unfold weightOf applyWeightLog
  simp only [List.mem_cons, List.not_mem_nil, or_false]
  by_cases h1 : fn = "SQRT"
  · simp [h1]
  by_cases h2 : fn = "RATIO"
  · simp [h2]
  by_cases h3 : fn = "MAX"
  · simp [h3]
  by_cases h4 : fn = "MIN"
  · simp [h4]
  · simp [h1, h2, h3, h4]

/-- **C110 (one step of a built sampler).** Whatever configuration a sampler was built from, if its class is
not one of the two that are wrong by construction, a step from a legal state is a probability kernel on the
samples that moves `exp` of the energy it works with by at most `2e-24 + 2 dim · 1e-32` of its mass. -/
theorem built_targets {c : RunCfg} {b : Built} (hb : buildSampler c = .ok b) {D C : ℕ}
    (hcats : b.cats = C) (hD : 0 < D) (hC : 2 ≤ C) (hs : Sound b.cls C) (M : ModelIface D C) (st : SamplerState)
    (hst : Legal b.cls D st) {K : (Fin D → ℤ) → (Fin D → ℤ) → ℝ} (hK : b.cls.kernel M st = some K) :
    Stochastic (validStates C D) K ∧
    NearlyInvariant (validStates C D) (fun x => Real.exp (energy b.cls M x)) K (2 * mhTiny + 2 * D * llEps) := by
  have ht := mhTiny_nonneg
  have hl := llEps_nonneg
  have hε : 0 ≤ 2 * mhTiny + 2 * (D : ℝ) * llEps := by positivity
  have hle : 2 * mhTiny ≤ 2 * mhTiny + 2 * (D : ℝ) * llEps := le_add_of_nonneg_right (by positivity)
  have hC0 : 0 < C := by omega
  have hπ : ∀ (F : (Fin D → ℤ) → ℝ), ∀ x ∈ validStates C D, (0 : ℝ) ≤ Real.exp (F x) :=
    fun F x _ => (Real.exp_pos _).le
  have hcon := (build_consistent hb).2.2
  rw [hcats] at hcon
  revert hK
  revert hst
  revert hs
  revert hcon
  unfold SamplerClass.kernel Sound Legal energy
  cases b.cls with
  | gibbs =>
    cases st <;> simp only [Option.some.injEq, reduceCtorEq, false_implies, implies_true]
    intro _ _ _ h
    subst h
    exact ⟨gibbs_stochastic M.f hC0 _, nearlyInvariant_of_reversible hε (hπ _) (gibbs_stochastic M.f hC0 _)
      (gibbs_reversible M.f hC0 _)⟩
  | blockGibbs k =>
    cases st <;> simp only [Option.some.injEq, reduceCtorEq, false_implies, implies_true]
    intro _ _ _ h
    subst h
    exact ⟨blockGibbs_stochastic M.f hC0 _, nearlyInvariant_of_reversible hε (hπ _)
      (blockGibbs_stochastic M.f hC0 _) (blockGibbs_reversible M.f _ _ _)⟩
  | hammingBall k m =>
    cases st <;> simp only [Option.some.injEq, reduceCtorEq, false_implies, implies_true]
    rintro ⟨_, hm⟩ rfl _ h
    subst h
    have := hb_stochastic M.f hC le_rfl m ‹BlockState›
    exact ⟨this, nearlyInvariant_of_reversible hε (hπ _) this (hb_reversible_partial M.f hC m hm _)⟩
  | randomWalk a t =>
    cases st <;> simp only [Option.some.injEq, reduceCtorEq, false_implies, implies_true]
    rintro _ _ ⟨h0, h1⟩ h
    subst h
    exact ⟨rw_stochastic a t ht M.f hC _ h0 h1, nearlyInvariant_mono (hπ _) hle (nearlyInvariant_of_iterate_one
      (rw_nearlyInvariant_run a t M.f hC (fun _ => _) (fun _ => h0) (fun _ => h1) 1))⟩
  | locallyBalanced fn =>
    cases st <;> simp only [reduceCtorEq, false_implies, implies_true]
  | gwgBinary fn k =>
    cases st <;> simp only [Option.map_eq_some_iff, reduceCtorEq, false_implies, implies_true]
    rintro ⟨rfl, _⟩ _ _ ⟨w, _, rfl⟩
    exact ⟨gwg_stochastic hD k ht w M.val M.grad M.mask _, nearlyInvariant_mono (hπ _) hle
      (nearlyInvariant_of_iterate_one (gwg_nearlyInvariant_run hD k w M.val M.grad M.mask (fun _ => _) 1))⟩
  | gwgAdaptive fn t =>
    cases st <;> simp only [dif_pos hD, Option.map_eq_some_iff, reduceCtorEq, false_implies, implies_true]
    rintro ⟨rfl, _⟩ _ _ ⟨w, _, rfl⟩
    exact ⟨gwgAdaptive_stochastic hD t ht w M.val M.grad M.mask _, nearlyInvariant_mono (hπ _) hle
      (nearlyInvariant_of_iterate_one
        (gwgAdaptive_nearlyInvariant_run hD t w M.val M.grad M.mask (fun _ => _) 1))⟩
  | gwgCateg fn =>
    cases st <;> simp only [Option.map_eq_some_iff, reduceCtorEq, false_implies, implies_true]
    rintro _ _ _ ⟨w, _, rfl⟩
    exact ⟨cgwg_stochastic hD hC0 ht w M.valHot M.gradHot _, nearlyInvariant_mono (hπ _) hle
      (nearlyInvariant_of_iterate_one (cgwg_nearlyInvariant_run hD hC0 w M.valHot M.gradHot (fun _ => _) 1))⟩
  | pathAux fn target k approx =>
    cases st <;> simp only [Option.bind_eq_some_iff, reduceCtorEq, false_implies, implies_true]
    rintro _ h2' _ ⟨w, _, h⟩
    by_cases h2 : C = 2
    · subst h2
      simp only [if_true, Option.bind_eq_some_iff] at h ⊢
      obtain ⟨l, hl', h⟩ := h
      have he : (fun x => Real.exp (if approx = true then M.val x else (M.nb.map fun g => (g x).1).getD 0)) =
          fun x => Real.exp (l.1 x) := by
        unfold ModelIface.pafsLocal at hl'
        cases approx with
        | true => simp only [if_true, Option.some.injEq] at hl' ⊢; rw [← hl']
        | false =>
          simp only [Bool.false_eq_true, if_false, Option.map_eq_some_iff] at hl' ⊢
          obtain ⟨g, hg, rfl⟩ := hl'
          simp [hg]
      rw [he]
      cases target with
      | some t =>
        simp only [Option.some.injEq] at h
        subst h
        exact ⟨pafsAdaptive_stochastic hD t ht w l.1 _ M.mask _, nearlyInvariant_mono (hπ _) hle
          (nearlyInvariant_of_iterate_one (pafsAdaptive_nearlyInvariant_run hD t w l.1 _ M.mask (fun _ => _) 1))⟩
      | none =>
        dsimp only at h
        split_ifs at h with hk
        simp only [Option.some.injEq] at h
        subst h
        have hk : k ≤ D := by omega
        exact ⟨pafs_stochastic hD hk ht w l.1 _ M.mask _, nearlyInvariant_mono (hπ _) hle
          (nearlyInvariant_of_iterate_one (pafs_nearlyInvariant_run hD hk w l.1 _ M.mask (fun _ => _) 1))⟩
    · simp only [h2, if_false, Option.bind_eq_some_iff] at h ⊢
      obtain ⟨l, hl', h⟩ := h
      have he : (fun x => Real.exp (if approx = true then M.valHot (oneHotRow C x)
          else (M.nbHot.map fun g => (g (oneHotRow C x)).1).getD 0)) =
          fun x => Real.exp (l.1 (oneHotRow C x)) := by
        unfold ModelIface.pafsLocalHot at hl'
        cases approx with
        | true => simp only [if_true, Option.some.injEq] at hl' ⊢; rw [← hl']
        | false =>
          simp only [Bool.false_eq_true, if_false, Option.map_eq_some_iff] at hl' ⊢
          obtain ⟨g, hg, rfl⟩ := hl'
          simp [hg]
      rw [he]
      cases target with
      | some t =>
        simp only [Option.some.injEq] at h
        subst h
        exact ⟨pafsCategAdaptive_stochastic hD hC0 t ht w l.1 _ M.mask _, nearlyInvariant_mono (hπ _) hle
          (nearlyInvariant_of_iterate_one (pafsCategAdaptive_nearlyInvariant_run hD hC0 t w l.1 _ M.mask
            (fun _ => _) 1))⟩
      | none => exact absurd h2' h2
  | dmala fn a =>
    cases st <;> simp only [Option.map_eq_some_iff, reduceCtorEq, false_implies, implies_true]
    rintro _ _ hfix ⟨w, _, rfl⟩
    by_cases h2 : C = 2
    · subst h2
      simp only [if_true]
      exact ⟨dmalaBinary_stochastic _ _ _ w M.val M.grad _ ht hfix,
        dmalaBinary_nearlyInvariant _ _ _ w M.val M.grad _ ht hl hfix⟩
    · simp only [h2, if_false]
      exact ⟨dmalaCateg_stochastic _ _ w M.valHot M.gradHot _ (by omega) ht hfix,
        nearlyInvariant_mono (hπ _) hle
          (dmalaCateg_nearlyInvariant _ _ w M.valHot M.gradHot _ (by omega) ht hfix)⟩
  | dlmc fn a =>
    cases st <;> simp only [reduceCtorEq, false_implies, implies_true]
    rintro _ _ hfix h
    by_cases hsol : a.solver = "interpolate" ∨ a.solver = "euler_forward"
    swap
    · rw [if_neg hsol] at h; exact absurd h (by simp)
    rw [if_pos hsol] at h
    have hsol : a.toCfg.solver ∈ knownSolvers := by simpa [knownSolvers, DAttrs.toCfg] using hsol
    simp only [Option.map_eq_some_iff] at h
    obtain ⟨w, _, rfl⟩ := h
    by_cases h2 : C = 2
    · subst h2
      simp only [if_true]
      exact ⟨dlmcBinary_stochastic _ _ _ w M.val M.grad _ hsol ht hfix,
        dlmcBinary_nearlyInvariant _ _ _ w M.val M.grad _ hsol ht hl hfix⟩
    · simp only [h2, if_false]
      exact ⟨dlmcCateg_stochastic _ _ w M.valHot M.gradHot _ hsol (by omega) ht hfix,
        nearlyInvariant_mono (hπ _) hle
          (dlmcCateg_nearlyInvariant _ _ w M.valHot M.gradHot _ hsol (by omega) ht hfix)⟩

/-- **C110 (a run of a built sampler).** Along any legal sequence of sampler states on which the step does not
raise, `n` steps of a sound built sampler move the target by at most `n` times the single-step bound. -/
theorem built_targets_run {c : RunCfg} {b : Built} (hb : buildSampler c = .ok b) {D C : ℕ}
    (hcats : b.cats = C) (hD : 0 < D) (hC : 2 ≤ C) (hs : Sound b.cls C) (M : ModelIface D C)
    (st : ℕ → SamplerState) (hst : ∀ t, Legal b.cls D (st t)) {K : ℕ → (Fin D → ℤ) → (Fin D → ℤ) → ℝ}
    (hK : ∀ t, b.cls.kernel M (st t) = some (K t)) (n : ℕ) :
    NearlyInvariant (validStates C D) (fun x => Real.exp (energy b.cls M x)) (iterate (validStates C D) K n)
      (n * (2 * mhTiny + 2 * D * llEps)) :=
  nearlyInvariant_iterate (fun t => (built_targets hb hcats hD hC hs M (st t) (hst t) (hK t)).1)
    (fun t => (built_targets hb hcats hD hC hs M (st t) (hst t) (hK t)).2) n

/-! ### When a step does not raise -/

/-- The states and attributes with which a step of the sampler does not raise. -/
def Spec.Runs (cls : SamplerClass) {D C : ℕ} (M : ModelIface D C) (st : SamplerState) : Prop :=
  let known (fn : String) : Prop := fn ∈ ["SQRT", "RATIO", "MAX", "MIN"]
  match cls, st with
  | .gibbs, .gibbs _ => True
  | .blockGibbs _, .block _ => True
  | .hammingBall _ _, .block _ => True
  | .randomWalk _ _, .walk _ => True
  | .gwgBinary fn _, .lb _ => known fn
  | .gwgAdaptive fn _, .lb _ => known fn
  | .gwgCateg fn, .lb _ => known fn
  | .pathAux fn target k approx, .lb _ =>
    known fn ∧ (target = none → k ≤ D) ∧
      (approx = false → if C = 2 then M.nb.isSome = true else M.nbHot.isSome = true)
  | .dmala fn _, .d _ => known fn
  | .dlmc fn a, .d _ => known fn ∧ a.solver ∈ ["interpolate", "euler_forward"]
  | _, _ => False

/-- **C110 (when the built sampler can step).** The step raises exactly for an unknown balancing function or
solver, for a fixed number of flips above the number of sites, for exact log-ratios that the model does not
have, for the plain locally balanced sampler, and for a state of another sampler: nothing of this is noticed
when the sampler is built. -/
theorem built_runs_iff (cls : SamplerClass) {D C : ℕ} (hD : 0 < D) (M : ModelIface D C) (st : SamplerState) :
    (cls.kernel M st).isSome ↔ Runs cls M st := by
  unfold SamplerClass.kernel Runs
  cases cls with
  | pathAux fn target k approx =>
    cases st <;> simp only [Option.isSome_none, Bool.false_eq_true]
    rw [← weightOf_isSome]
    cases hw : weightOf fn with
    | none => simp
    | some w =>
      simp only [Option.bind_some, Option.isSome_some, true_and]
      unfold ModelIface.pafsLocal ModelIface.pafsLocalHot
      by_cases h2 : C = 2
      · simp only [h2, if_true]
        cases approx <;> cases hn : M.nb <;> cases target <;> simp
      · simp only [h2, if_false]
        cases approx <;> cases hn : M.nbHot <;> cases target <;> simp
  | dlmc fn a =>
    cases st <;> simp only [Option.isSome_none, Bool.false_eq_true]
    rw [← weightOf_isSome]
    by_cases hsol : a.solver = "interpolate" ∨ a.solver = "euler_forward"
    · rw [if_pos hsol]; simp [hsol]
    · rw [if_neg hsol]; simp [hsol]
  | gwgAdaptive fn t =>
    cases st <;> simp only [Option.isSome_none, Bool.false_eq_true, dif_pos hD]
    rw [← weightOf_isSome]; simp
  | gwgBinary fn k =>
    cases st <;> simp only [Option.isSome_none, Bool.false_eq_true]
    rw [← weightOf_isSome]; simp
  | gwgCateg fn =>
    cases st <;> simp only [Option.isSome_none, Bool.false_eq_true]
    rw [← weightOf_isSome]; simp
  | dmala fn a =>
    cases st <;> simp only [Option.isSome_none, Bool.false_eq_true]
    rw [← weightOf_isSome]; simp
  | gibbs => cases st <;> simp
  | blockGibbs k => cases st <;> simp
  | hammingBall k m => cases st <;> simp
  | randomWalk a t => cases st <;> simp
  | locallyBalanced fn => cases st <;> simp

/-! ### The two classes that are wrong by construction -/

/-- **C110 (Hamming-ball configurations).** A built Hamming-ball sampler whose block fits into the sample keeps
every target exactly if its block is a single site. -/
theorem built_hammingBall_iff {c : RunCfg} {b : Built} (hb : buildSampler c = .ok b) (hC : 2 ≤ b.cats)
    {k m : ℕ} (hcls : b.cls = .hammingBall k m) (hk : k ≤ b.dim) :
    (∀ (M : ModelIface b.dim b.cats) (s : BlockState) (K : (Fin b.dim → ℤ) → (Fin b.dim → ℤ) → ℝ),
      b.cls.kernel M (.block s) = some K →
      Invariant (validStates b.cats b.dim) (fun x => Real.exp (M.f x)) K) ↔ k = 1 := by
  have hcon := (build_consistent hb).2.2
  rw [hcls] at hcon
  obtain ⟨h1, hm⟩ := hcon
  have hker : ∀ (M : ModelIface b.dim b.cats) (s : BlockState),
      b.cls.kernel M (.block s) = some (hbKernel M.f b.cats k m s) := by
    intro M s
    rw [hcls]
    rfl
  constructor
  · intro h
    by_contra hne
    obtain ⟨f, hf, -⟩ := hb_not_invariant (D := b.dim) hC (by omega : 2 ≤ k) hk
    rw [samplesPerHamming_eq hC h1] at hm
    have hm : k * (b.cats - 1) = m := by simpa using hm
    subst hm
    exact hf (h ⟨f, f, fun _ _ => 0, none, fun _ => 0, fun _ _ _ => 0, none, none⟩ blockInit _ (hker _ _))
  · rintro rfl M s K hK
    rw [hker] at hK
    simp only [Option.some.injEq] at hK
    subst hK
    have := nearlyInvariant_of_reversible le_rfl (fun x _ => (Real.exp_pos (M.f x)).le)
      (hb_stochastic M.f hC le_rfl m s) (hb_reversible_partial M.f hC m hm s)
    exact nearlyInvariant_zero_iff.mp this

/-- **C110 (fixed flips with categories).** The shipped path-auxiliary configuration with `adaptive` switched
off, on a model with one site and three categories, builds a sampler whose step runs and moves the target of
some model by more than a twentieth of its mass, in every state. -/
theorem built_pathAux_categ_wrong :
    ∃ (c : RunCfg) (b : Built) (M : ModelIface 1 3), buildSampler c = .ok b ∧ c.name = "path_auxiliary" ∧
      b.dim = 1 ∧ b.cats = 3 ∧ ∀ s : LBState, ∃ K, b.cls.kernel M (.lb s) = some K ∧
        ¬ NearlyInvariant (validStates 3 1) (fun x => Real.exp (energy b.cls M x)) K (1 / 20) := by
  refine ⟨{ shape := some [1], numCategories := some 3, coOpt := some false, name := "path_auxiliary",
            useFastPath := some true, numFlips := some 1, adaptive := some false,
            target := some (574 / 1000), balancing := some "SQRT", approxWithGrad := some true },
    ⟨[1], 3, .pathAux "SQRT" none 1 true⟩,
    ⟨fun x => witF (oneHotRow 3 x), fun x => witF (oneHotRow 3 x), fun _ _ => 0, none, witF,
      fun _ _ c => witA c, none, none⟩,
    ?_, rfl, rfl, rfl, fun s => ?_⟩
  · simp [buildSampler, buildPathAux, pafsBuild, buildLB_eq, need, bind, Except.bind, pure, Except.pure]
  · refine ⟨pafsCategKernel 1 mhTiny (· / 2) 3 witF witR none s, ?_, ?_⟩
    · have hw : weightOf "SQRT" = some fun t => t / 2 := by
        simp [weightOf, applyWeightLog, Except.toOption]
      have hr : (fun x => deltaCateg (D := 1) (fun _ _ c => witA c) x) = witR := by
        funext x j c
        have hj : j = 0 := Subsingleton.elim _ _
        simp [deltaCateg, witR, hj]
      unfold SamplerClass.kernel
      simp [hw, ModelIface.pafsLocalHot, hr]
    · have := pafsCateg_not_invariant mhTiny mhTiny_nonneg (by unfold mhTiny; norm_num) s
      simpa [energy] using this

/-! ### The shipped configurations -/

/-- **C110 (the shipped sampler configurations).** With any model shape, at least two categories and any value
of `co_opt_prob` the nine shipped configurations build these samplers, in the order of the files. -/
theorem shipped_built (shape : List ℕ) {C : ℕ} (hC : 2 ≤ C) (co : Bool) :
    (shippedSampler shape C co).map buildSampler = ([
      .blockGibbs 2,
      .dlmc "SQRT" ⟨true, co, 0, some (574 / 1000), some 200, some 20, 3, "interpolate"⟩,
      .dmala "SQRT" ⟨true, co, 2 / 10, some (574 / 1000), some 100, some 20, 3, ""⟩,
      .gibbs,
      if C = 2 then .gwgAdaptive "SQRT" (574 / 1000) else .gwgCateg "SQRT",
      .hammingBall 10 (10 * (C - 1)),
      .locallyBalanced "SQRT",
      .pathAux "SQRT" (some (574 / 1000)) 1 true,
      .randomWalk true (237 / 1000)] : List SamplerClass).map fun cls => .ok ⟨shape, C, cls⟩ := by
  have h10 := samplesPerHamming_eq hC (by norm_num : 1 ≤ 10)
  by_cases h2 : C = 2
  · subst h2
    simp [shippedSampler, buildSampler, buildBlockGibbs, buildDLMC, buildDMALA, buildGibbs, buildGWG, gwgBuild,
      buildHammingBall, buildLocallyBalanced, buildPathAux, pafsBuild, buildRandomWalk, buildLB_eq, need, bind,
      Except.bind, pure, Except.pure, Except.map, h10]
  · simp [shippedSampler, buildSampler, buildBlockGibbs, buildDLMC, buildDMALA, buildGibbs, buildGWG, gwgBuild,
      buildHammingBall, buildLocallyBalanced, buildPathAux, pafsBuild, buildRandomWalk, buildLB_eq, need, bind,
      Except.bind, pure, Except.pure, Except.map, h10, h2]

/-- **C110 (which shipped configurations are right).** Among the shipped configurations, exactly the Hamming
ball is not of a sound class, and exactly the plain locally balanced sampler can never make a step. -/
theorem shipped_sound (shape : List ℕ) {C : ℕ} (hC : 2 ≤ C) (co : Bool) (c : RunCfg)
    (hc : c ∈ shippedSampler shape C co) {b : Built} (hb : buildSampler c = .ok b) {D : ℕ} (M : ModelIface D C) :
    (Sound b.cls C ↔ c.name ≠ "hammingball") ∧
    ((∃ st, Runs b.cls M st) ↔ c.name ≠ "locallybalanced") := by
  have h10 := samplesPerHamming_eq hC (by norm_num : 1 ≤ 10)
  simp only [shippedSampler, List.mem_cons, List.not_mem_nil, or_false] at hc
  rcases hc with rfl | rfl | rfl | rfl | rfl | rfl | rfl | rfl | rfl
  · simp [buildSampler, buildBlockGibbs, need, bind, Except.bind, pure, Except.pure] at hb
    subst hb
    exact ⟨by simp [Sound], iff_of_true ⟨.block blockInit, by simp [Runs]⟩ (by simp)⟩
  · simp [buildSampler, buildDLMC, buildLB_eq, need, bind, Except.bind, pure, Except.pure] at hb
    subst hb
    exact ⟨by simp [Sound], iff_of_true ⟨.d ⟨0, 0, none, 0⟩, by simp [Runs]⟩ (by simp)⟩
  · simp [buildSampler, buildDMALA, buildLB_eq, need, bind, Except.bind, pure, Except.pure] at hb
    subst hb
    exact ⟨by simp [Sound], iff_of_true ⟨.d ⟨0, 0, none, 0⟩, by simp [Runs]⟩ (by simp)⟩
  · simp [buildSampler, buildGibbs, need, bind, Except.bind, pure, Except.pure] at hb
    subst hb
    exact ⟨by simp [Sound], iff_of_true ⟨.gibbs gibbsInit, by simp [Runs]⟩ (by simp)⟩
  · by_cases h2 : C = 2
    · subst h2
      simp [buildSampler, buildGWG, gwgBuild, buildLB_eq, need, bind, Except.bind, pure, Except.pure] at hb
      subst hb
      exact ⟨by simp [Sound], iff_of_true ⟨.lb ⟨0, 0, 0⟩, by simp [Runs]⟩ (by simp)⟩
    · simp [buildSampler, buildGWG, gwgBuild, buildLB_eq, h2, need, bind, Except.bind, pure, Except.pure] at hb
      subst hb
      exact ⟨by simp [Sound], iff_of_true ⟨.lb ⟨0, 0, 0⟩, by simp [Runs]⟩ (by simp)⟩
  · simp [buildSampler, buildHammingBall, h10, need, bind, Except.bind, pure, Except.pure] at hb
    subst hb
    exact ⟨by simp [Sound], iff_of_true ⟨.block blockInit, by simp [Runs]⟩ (by simp)⟩
  · simp [buildSampler, buildLocallyBalanced, buildLB_eq, bind, Except.bind, pure, Except.pure] at hb
    subst hb
    simp [Sound, Runs]
  · simp [buildSampler, buildPathAux, pafsBuild, buildLB_eq, Except.map, need, bind, Except.bind, pure, Except.pure] at hb
    subst hb
    exact ⟨by simp [Sound], iff_of_true ⟨.lb ⟨0, 0, 0⟩, by simp [Runs]⟩ (by simp)⟩
  · simp [buildSampler, buildRandomWalk, need, bind, Except.bind, pure, Except.pure] at hb
    subst hb
    exact ⟨by simp [Sound], iff_of_true ⟨.walk rwInit, by simp [Runs]⟩ (by simp)⟩

/-- Instance for C110: the shipped Langevin configuration on a model with four sites and three categories, past
the first step, is built, sound, legal and runs. -/
example (n : ℕ) (hn : n ≠ 0) (M : ModelIface 4 3) :
    ∃ b, buildSampler ((shippedSampler [2, 2] 3 false)[1]) = .ok b ∧ b.dim = 4 ∧ b.cats = 3 ∧ Sound b.cls 3 ∧
      Legal b.cls 4 (.d ⟨n, 5, some 1, 2⟩) ∧ Runs b.cls M (.d ⟨n, 5, some 1, 2⟩) := by
  refine ⟨⟨[2, 2], 3, .dlmc "SQRT" ⟨true, false, 0, some (574 / 1000), some 200, some 20, 3, "interpolate"⟩⟩,
    ?_, rfl, rfl, trivial, Or.inr hn, by simp [Runs]⟩
  simp [shippedSampler, buildSampler, buildDLMC, buildLB_eq, need, bind, Except.bind, pure, Except.pure]

end Discs
