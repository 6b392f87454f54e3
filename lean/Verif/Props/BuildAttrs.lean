import Verif.Props.Build

/-!
# C110: the attributes of the built sampler
-/

namespace Discs

set_option linter.unusedSimpArgs false

open Spec

namespace Spec

/-- An attribute read with `get(key, d)` has the value `v`. -/
def GetsOr {α : Type} (key : Option α) (d v : α) : Prop := key = some v ∨ key = none ∧ v = d

end Spec

/-- **C110 (attributes).** The class belongs to the configured name, and every attribute is the value of its key
or, where the code has one, the default. -/
theorem build_attrs {c : RunCfg} {b : Built} (h : buildSampler c = .ok b) :
    match b.cls with
    | .gibbs => c.name = "gibbs"
    | .blockGibbs k => c.name = "blockgibbs" ∧ c.blockSize = some k
    | .hammingBall k _ => c.name = "hammingball" ∧ c.blockSize = some k
    | .randomWalk a t => c.name = "randomwalk" ∧ c.adaptive = some a ∧ c.target = some t
    | .locallyBalanced fn => c.name = "locallybalanced" ∧ c.balancing = some fn
    | .gwgBinary fn k => c.name = "gwg" ∧ c.balancing = some fn ∧ GetsOr c.numFlips 1 k
    | .gwgAdaptive fn t => c.name = "gwg" ∧ c.balancing = some fn ∧ c.target = some t
    | .gwgCateg fn => c.name = "gwg" ∧ c.balancing = some fn
    | .pathAux fn t k approx => c.name = "path_auxiliary" ∧ c.balancing = some fn ∧ GetsOr c.numFlips 1 k ∧
        GetsOr c.approxWithGrad true approx ∧ t = (if c.adaptive = some true then c.target else none)
    | .dmala fn a => c.name = "dmala" ∧ c.balancing = some fn ∧ c.adaptive = some a.adaptive ∧
        c.coOpt = some a.coOpt ∧ GetsOr c.stepSize (3 / 10) a.stepSize ∧
        (a.adaptive = true → a.target = c.target ∧ (∃ k, a.scheduleStep = some k ∧ GetsOr c.scheduleStep 100 k) ∧
          ∃ z, a.resetZ = some z ∧ GetsOr c.resetZ 20 z)
    | .dlmc fn a => c.name = "dlmc" ∧ c.balancing = some fn ∧ c.adaptive = some a.adaptive ∧
        c.coOpt = some a.coOpt ∧ GetsOr c.n 3 a.n ∧ GetsOr c.solver "interpolate" a.solver ∧
        (∃ z, a.resetZ = some z ∧ GetsOr c.resetZ (-1) z) ∧
        (a.adaptive = true → a.target = c.target ∧ a.scheduleStep = c.scheduleStep) := by
  obtain ⟨shape, C, co, name, ad, target, bal, nf, bs, ss, sch, rz, n, solver, fast, approx⟩ := c
  unfold buildSampler at h
  dsimp only at h
  split_ifs at h with h1 h2 h3 h4 h5 h6 h7 h8 h9
  · cases shape <;> cases C <;>
      simp [buildGibbs, need, bind, Except.bind, pure, Except.pure] at h
    subst h; simp [h1]
  · cases shape <;> cases C <;> cases bs <;>
      simp [buildBlockGibbs, need, bind, Except.bind, pure, Except.pure] at h
    subst h; simp [h2]
  · cases shape <;> cases C <;> cases bs <;>
      simp [buildHammingBall, need, bind, Except.bind, pure, Except.pure] at h
    rename_i C k
    cases hm : samplesPerHamming C k with
    | error e => rw [hm] at h; simp at h
    | ok m =>
      rw [hm] at h
      simp only [Except.ok.injEq] at h
      subst h; simp [h3]
  · cases shape <;> cases C <;> cases ad <;> cases target <;>
      simp [buildRandomWalk, need, bind, Except.bind, pure, Except.pure] at h
    subst h; simp [h4]
  · cases shape <;> cases C <;> cases bal <;>
      simp [buildLocallyBalanced, buildLB_eq, bind, Except.bind, pure, Except.pure] at h
    subst h; simp [h5]
  · cases C with
    | none => simp [buildGWG, need, bind, Except.bind] at h
    | some C =>
      by_cases hC : C = 2 <;> rcases ad with _ | _ | _ <;> cases shape <;> cases bal <;> cases target <;>
        simp [buildGWG, gwgBuild, buildLB_eq, need, bind, Except.bind, pure, Except.pure, hC] at h <;>
        subst h <;> cases nf <;> simp [h6, GetsOr]
  · rcases fast with _ | _ | _
    · simp [buildPathAux, need, bind, Except.bind] at h
    · simp [buildPathAux, pafsBuild, need, bind, Except.bind] at h
    · rcases ad with _ | _ | _ <;> cases target <;> cases shape <;> cases C <;> cases bal <;>
        simp [buildPathAux, pafsBuild, buildLB_eq, need, bind, Except.bind, pure, Except.pure, Except.map] at h <;>
        subst h <;> cases nf <;> cases approx <;> simp [h7, GetsOr]
  · rcases ad with _ | _ | _ <;> cases target <;> cases shape <;> cases C <;> cases bal <;> cases co <;>
      simp [buildDMALA, buildLB_eq, need, bind, Except.bind, pure, Except.pure] at h <;>
      subst h <;> cases ss <;> cases sch <;> cases rz <;> simp [h8, GetsOr]
  · rcases ad with _ | _ | _ <;> cases target <;> cases shape <;> cases C <;> cases bal <;> cases co <;>
      cases sch <;>
      simp [buildDLMC, buildLB_eq, need, bind, Except.bind, pure, Except.pure] at h <;>
      subst h <;> cases n <;> cases solver <;> cases rz <;> simp [h9, GetsOr]

/-- A non-trivial instance: DMALA without the optional keys. -/
example : buildSampler
      { shape := some [2, 3], numCategories := some 2, coOpt := some false, name := "dmala",
        adaptive := some true, target := some (1 / 2), balancing := some "SQRT" } =
    .ok ⟨[2, 3], 2, .dmala "SQRT" ⟨true, false, 3 / 10, some (1 / 2), some 100, some 20, 3, ""⟩⟩ := rfl

end Discs
