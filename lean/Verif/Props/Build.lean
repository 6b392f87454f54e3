import Verif.Model.Build
import Verif.Props.HammingBall

/-!
# C110: the sampler built from a configuration
-/

namespace Discs

set_option linter.unusedSimpArgs false

open Finset Spec

/-! ### Which configurations can be built -/

namespace Spec

/-- The module names under `discs/samplers`. -/
def samplerModules : List String :=
  ["gibbs", "blockgibbs", "hammingball", "randomwalk", "locallybalanced", "gwg", "path_auxiliary", "dmala", "dlmc"]

/-- The keys that a configuration must have. -/
def neededKeys (name : String) (adaptive : Bool) (binary : Bool) : List String :=
  ["shape", "num_categories"] ++
  match name with
  | "blockgibbs" | "hammingball" => ["block_size"]
  | "randomwalk" => ["adaptive", "target_acceptance_rate"]
  | "locallybalanced" => ["balancing_fn_type"]
  | "gwg" => "balancing_fn_type" :: if adaptive && binary then ["target_acceptance_rate"] else []
  | "path_auxiliary" =>
    "balancing_fn_type" :: "use_fast_path" :: if adaptive then ["target_acceptance_rate"] else []
  | "dmala" =>
    ["balancing_fn_type", "adaptive", "co_opt_prob"] ++ if adaptive then ["target_acceptance_rate"] else []
  | "dlmc" =>
    ["balancing_fn_type", "adaptive", "co_opt_prob"] ++
      if adaptive then ["target_acceptance_rate", "schedule_step"] else []
  | _ => []

/-- Whether the configuration has a key. -/
def hasKey (c : RunCfg) : String → Bool
  | "shape" => c.shape.isSome
  | "num_categories" => c.numCategories.isSome
  | "co_opt_prob" => c.coOpt.isSome
  | "adaptive" => c.adaptive.isSome
  | "target_acceptance_rate" => c.target.isSome
  | "balancing_fn_type" => c.balancing.isSome
  | "block_size" => c.blockSize.isSome
  | "schedule_step" => c.scheduleStep.isSome
  | "use_fast_path" => c.useFastPath.isSome
  | _ => false

end Spec

theorem comb_one_ok (b : ℕ) : (∃ m, comb b 1 = .ok m) ↔ b ≠ 0 := by
  unfold comb
  by_cases h : b = 0
  · subst h; simp
  · have : ¬ b < 1 := by omega
    simp [this, h]

theorem samplesPerHamming_ok (C b : ℕ) : (∃ m, samplesPerHamming C b = .ok m) ↔ b ≠ 0 := by
  rw [← comb_one_ok]
  unfold samplesPerHamming
  cases h : comb b 1 with
  | error e => simp [bind, Except.bind]
  | ok m => simp [bind, Except.bind, pure, Except.pure]

theorem buildLB_eq (c : RunCfg) : buildLB c =
    match c.shape, c.numCategories, c.balancing with
    | some s, some C, some fn => .ok (s, C, fn)
    | none, _, _ => .error (.missing "shape")
    | some _, none, _ => .error (.missing "num_categories")
    | some _, some _, none => .error (.missing "balancing_fn_type") := by
  unfold buildLB
  cases c.shape <;> cases c.numCategories <;> cases c.balancing <;> rfl

/-- The part of `build_ok_iff` after the name. -/
def Spec.buildable (c : RunCfg) : Prop :=
  (∀ k ∈ neededKeys c.name (c.adaptive.getD false) (c.numCategories = some 2), hasKey c k = true) ∧
  (c.name = "path_auxiliary" → c.useFastPath = some true) ∧
  (c.name = "hammingball" → c.blockSize ≠ some 0)

theorem build_ok_simple (c : RunCfg) (h : c.name = "gibbs" ∨ c.name = "blockgibbs" ∨ c.name = "hammingball" ∨
    c.name = "randomwalk" ∨ c.name = "locallybalanced") :
    (∃ b, buildSampler c = .ok b) ↔ buildable c := by
  unfold buildable
  obtain ⟨shape, C, co, name, ad, target, bal, nf, bs, ss, sch, rz, n, solver, fast, approx⟩ := c
  dsimp only at h
  rcases h with rfl | rfl | rfl | rfl | rfl
  · cases shape <;> cases C <;>
      simp [buildSampler, buildGibbs, need, neededKeys, hasKey, bind, Except.bind, pure, Except.pure]
  · cases shape <;> cases C <;> cases bs <;>
      simp [buildSampler, buildBlockGibbs, need, neededKeys, hasKey, bind, Except.bind, pure, Except.pure]
  · cases shape <;> cases C <;> cases bs <;>
      simp [buildSampler, buildHammingBall, need, neededKeys, hasKey, bind, Except.bind, pure, Except.pure]
    rename_i C b
    rw [← ne_eq b 0, ← samplesPerHamming_ok C b]
    cases samplesPerHamming C b <;> simp
  · cases shape <;> cases C <;> cases ad <;> cases target <;>
      simp [buildSampler, buildRandomWalk, need, neededKeys, hasKey, bind, Except.bind, pure, Except.pure]
  · cases shape <;> cases C <;> cases bal <;>
      simp [buildSampler, buildLocallyBalanced, buildLB_eq, neededKeys, hasKey, bind, Except.bind, pure, Except.pure]

theorem build_ok_gwg (c : RunCfg) (h : c.name = "gwg") :
    (∃ b, buildSampler c = .ok b) ↔ buildable c := by
  unfold buildable
  obtain ⟨shape, C, co, name, ad, target, bal, nf, bs, ss, sch, rz, n, solver, fast, approx⟩ := c
  dsimp only at h
  subst h
  cases C with
  | none => simp [buildSampler, buildGWG, need, neededKeys, hasKey, bind, Except.bind]
  | some C =>
    by_cases hC : C = 2 <;> rcases ad with _ | _ | _ <;> cases shape <;> cases bal <;> cases target <;>
      simp [buildSampler, buildGWG, gwgBuild, buildLB_eq, need, neededKeys, hasKey, bind, Except.bind, pure,
        Except.pure, hC]

theorem build_ok_pathAux (c : RunCfg) (h : c.name = "path_auxiliary") :
    (∃ b, buildSampler c = .ok b) ↔ buildable c := by
  unfold buildable
  obtain ⟨shape, C, co, name, ad, target, bal, nf, bs, ss, sch, rz, n, solver, fast, approx⟩ := c
  dsimp only at h
  subst h
  rcases fast with _ | _ | _
  · simp [buildSampler, buildPathAux, need, neededKeys, hasKey, bind, Except.bind]
  · simp [buildSampler, buildPathAux, pafsBuild, need, neededKeys, hasKey, bind, Except.bind]
  · rcases ad with _ | _ | _ <;> cases target <;> cases shape <;> cases C <;> cases bal <;>
      simp [buildSampler, buildPathAux, pafsBuild, buildLB_eq, need, neededKeys, hasKey, bind, Except.bind, pure,
        Except.pure, Except.map]

theorem build_ok_dmala (c : RunCfg) (h : c.name = "dmala") :
    (∃ b, buildSampler c = .ok b) ↔ buildable c := by
  unfold buildable
  obtain ⟨shape, C, co, name, ad, target, bal, nf, bs, ss, sch, rz, n, solver, fast, approx⟩ := c
  dsimp only at h
  subst h
  rcases C with _ | C
  · simp [buildSampler, buildDMALA, buildLB_eq, need, neededKeys, hasKey, bind, Except.bind, pure, Except.pure]
  rcases shape with _ | shape
  · simp [buildSampler, buildDMALA, buildLB_eq, need, neededKeys, hasKey, bind, Except.bind, pure, Except.pure]
  rcases bal with _ | bal
  · simp [buildSampler, buildDMALA, buildLB_eq, need, neededKeys, hasKey, bind, Except.bind, pure, Except.pure]
  rcases ad with _ | ad
  · simp [buildSampler, buildDMALA, buildLB_eq, need, neededKeys, hasKey, bind, Except.bind, pure, Except.pure]
  rcases co with _ | co
  · simp [buildSampler, buildDMALA, buildLB_eq, need, neededKeys, hasKey, bind, Except.bind, pure, Except.pure]
  cases ad <;> cases target <;>
    simp [buildSampler, buildDMALA, buildLB_eq, need, neededKeys, hasKey, bind, Except.bind, pure, Except.pure]

theorem build_ok_dlmc (c : RunCfg) (h : c.name = "dlmc") :
    (∃ b, buildSampler c = .ok b) ↔ buildable c := by
  unfold buildable
  obtain ⟨shape, C, co, name, ad, target, bal, nf, bs, ss, sch, rz, n, solver, fast, approx⟩ := c
  dsimp only at h
  subst h
  rcases C with _ | C
  · simp [buildSampler, buildDLMC, buildLB_eq, need, neededKeys, hasKey, bind, Except.bind, pure, Except.pure]
  rcases shape with _ | shape
  · simp [buildSampler, buildDLMC, buildLB_eq, need, neededKeys, hasKey, bind, Except.bind, pure, Except.pure]
  rcases bal with _ | bal
  · simp [buildSampler, buildDLMC, buildLB_eq, need, neededKeys, hasKey, bind, Except.bind, pure, Except.pure]
  rcases ad with _ | ad
  · simp [buildSampler, buildDLMC, buildLB_eq, need, neededKeys, hasKey, bind, Except.bind, pure, Except.pure]
  rcases co with _ | co
  · simp [buildSampler, buildDLMC, buildLB_eq, need, neededKeys, hasKey, bind, Except.bind, pure, Except.pure]
  cases ad <;> cases target <;> cases sch <;>
    simp [buildSampler, buildDLMC, buildLB_eq, need, neededKeys, hasKey, bind, Except.bind, pure, Except.pure]

/-- **C110 (what a configuration must contain).** A sampler is built exactly if its module exists, the keys
it needs are there, a path-auxiliary sampler asks for the fast path, and a Hamming ball has a block. -/
theorem build_ok_iff (c : RunCfg) :
    (∃ b, buildSampler c = .ok b) ↔
      c.name ∈ samplerModules ∧
      (∀ k ∈ neededKeys c.name (c.adaptive.getD false) (c.numCategories = some 2), hasKey c k = true) ∧
      (c.name = "path_auxiliary" → c.useFastPath = some true) ∧
      (c.name = "hammingball" → c.blockSize ≠ some 0) := by
  by_cases hn : c.name ∈ samplerModules
  · rw [and_iff_right hn]
    change _ ↔ buildable c
    simp only [samplerModules, List.mem_cons, List.not_mem_nil, or_false] at hn
    rcases hn with h | h | h | h | h | h | h | h | h
    · exact build_ok_simple c (by simp [h])
    · exact build_ok_simple c (by simp [h])
    · exact build_ok_simple c (by simp [h])
    · exact build_ok_simple c (by simp [h])
    · exact build_ok_simple c (by simp [h])
    · exact build_ok_gwg c h
    · exact build_ok_pathAux c h
    · exact build_ok_dmala c h
    · exact build_ok_dlmc c h
  · refine ⟨fun ⟨b, h⟩ => absurd h ?_, fun h => absurd h.1 hn⟩
    simp only [samplerModules, List.mem_cons, List.not_mem_nil, or_false, not_or] at hn
    obtain ⟨h1, h2, h3, h4, h5, h6, h7, h8, h9⟩ := hn
    simp [buildSampler, h1, h2, h3, h4, h5, h6, h7, h8, h9]

/-! ### What the built sampler looks like -/

/-- **C110 (consistency of the built sampler).** The shape and the number of categories are those of the model
configuration; a Hamming-ball sampler has as many candidates as its block gives; the two binary GWG classes
are built for two categories only, the categorical one never. -/
theorem build_consistent {c : RunCfg} {b : Built} (h : buildSampler c = .ok b) :
    c.shape = some b.shape ∧ c.numCategories = some b.cats ∧
      match b.cls with
      | .hammingBall k m => 1 ≤ k ∧ samplesPerHamming b.cats k = .ok m
      | .gwgBinary _ _ => b.cats = 2 ∧ c.adaptive.getD false = false
      | .gwgAdaptive _ t => b.cats = 2 ∧ c.adaptive = some true ∧ c.target = some t
      | .gwgCateg _ => b.cats ≠ 2
      | _ => True := by
  obtain ⟨shape, C, co, name, ad, target, bal, nf, bs, ss, sch, rz, n, solver, fast, approx⟩ := c
  unfold buildSampler at h
  dsimp only at h
  split_ifs at h
  · cases shape <;> cases C <;>
      simp [buildGibbs, need, bind, Except.bind, pure, Except.pure] at h
    subst h; simp
  · cases shape <;> cases C <;> cases bs <;>
      simp [buildBlockGibbs, need, bind, Except.bind, pure, Except.pure] at h
    subst h; simp
  · cases shape <;> cases C <;> cases bs <;>
      simp [buildHammingBall, need, bind, Except.bind, pure, Except.pure] at h
    rename_i C k
    cases hm : samplesPerHamming C k with
    | error e => rw [hm] at h; simp at h
    | ok m =>
      rw [hm] at h
      simp only [Except.ok.injEq] at h
      subst h
      have := (samplesPerHamming_ok C k).mp ⟨m, hm⟩
      simp only [true_and]
      exact ⟨by omega, hm⟩
  · cases shape <;> cases C <;> cases ad <;> cases target <;>
      simp [buildRandomWalk, need, bind, Except.bind, pure, Except.pure] at h
    subst h; simp
  · cases shape <;> cases C <;> cases bal <;>
      simp [buildLocallyBalanced, buildLB_eq, bind, Except.bind, pure, Except.pure] at h
    subst h; simp
  · cases C with
    | none => simp [buildGWG, need, bind, Except.bind] at h
    | some C =>
      by_cases hC : C = 2 <;> rcases ad with _ | _ | _ <;> cases shape <;> cases bal <;> cases target <;>
        simp [buildGWG, gwgBuild, buildLB_eq, need, bind, Except.bind, pure, Except.pure, hC] at h <;>
        subst h <;> simp [hC]
  · rcases fast with _ | _ | _
    · simp [buildPathAux, need, bind, Except.bind] at h
    · simp [buildPathAux, pafsBuild, need, bind, Except.bind] at h
    · rcases ad with _ | _ | _ <;> cases target <;> cases shape <;> cases C <;> cases bal <;>
        simp [buildPathAux, pafsBuild, buildLB_eq, need, bind, Except.bind, pure, Except.pure, Except.map] at h <;>
        subst h <;> simp
  · rcases ad with _ | _ | _ <;> cases target <;> cases shape <;> cases C <;> cases bal <;> cases co <;>
      simp [buildDMALA, buildLB_eq, need, bind, Except.bind, pure, Except.pure] at h <;>
      subst h <;> simp
  · rcases ad with _ | _ | _ <;> cases target <;> cases shape <;> cases C <;> cases bal <;> cases co <;>
      cases sch <;>
      simp [buildDLMC, buildLB_eq, need, bind, Except.bind, pure, Except.pure] at h <;>
      subst h <;> simp

end Discs
