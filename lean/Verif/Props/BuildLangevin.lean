import Verif.Props.BuildTarget

/-!
# C110: the Langevin samplers built from a configuration

The step of a sampler built from a `dmala` or `dlmc` section is the step with the values of that section; missing ones
have the defaults of the code.
-/

namespace Discs

open Finset Spec

private theorem weightOf_spec {fn : String} {h : ℝ → ℝ} (hw : weightOf fn = some h) (t : ℝ) :
    applyWeightLog fn t = .ok (h t) := by
  have hk : fn ∈ ["SQRT", "RATIO", "MAX", "MIN"] := (weightOf_isSome fn).1 (by rw [hw]; rfl)
  unfold weightOf at hw
  have hok : ∃ v, applyWeightLog fn t = .ok v := by
    unfold applyWeightLog
    simp only [List.mem_cons, List.not_mem_nil, or_false] at hk
    rcases hk with rfl | rfl | rfl | rfl <;> simp
  obtain ⟨v, hv⟩ := hok
  split at hw
  · rw [← Option.some.inj hw]
    simp only [hv, Except.toOption, Option.getD_some]
  · simp at hw

/-- **C110 (DLMC).**  The solver is interpolation, `n` is 3 and `reset_z_est` is -1 unless given. -/
theorem built_dlmc_step {c : RunCfg} {b : Built} (hb : buildSampler c = .ok b) (hn : c.name = "dlmc") {D C : ℕ}
    (M : ModelIface D C) (s : DState) {K : (Fin D → ℤ) → (Fin D → ℤ) → ℝ} (hK : b.cls.kernel M (.d s) = some K) :
    ∃ (cfg : DCfg) (fn : String) (h : ℝ → ℝ),
      c.balancing = some fn ∧ (∀ t, applyWeightLog fn t = .ok (h t)) ∧
      c.adaptive = some cfg.adaptive ∧ c.coOpt = some cfg.coOpt ∧
      cfg.solver = c.solver.getD "interpolate" ∧ cfg.n = ((c.n.getD 3 : ℚ) : ℝ) ∧ cfg.resetZ = c.resetZ.getD (-1) ∧
      (c.adaptive = some true → (∃ t, c.target = some t ∧ cfg.target = (t : ℝ)) ∧ c.scheduleStep = some cfg.scheduleStep) ∧
      K = if C = 2 then dlmcBinaryKernel cfg mhTiny llEps h M.val M.grad s
        else dlmcCategKernel cfg mhTiny h C M.valHot M.gradHot s := by
  obtain ⟨shape, C', co, name, ad, target, bal, nf, bs, ss, sch, rz, n, solver, fast, approx⟩ := c
  dsimp only at hn
  subst hn
  have key : ∃ (fn : String) (a : DAttrs), b.cls = .dlmc fn a ∧ bal = some fn ∧ ad = some a.adaptive ∧
      co = some a.coOpt ∧ a.solver = solver.getD "interpolate" ∧ a.n = n.getD 3 ∧ a.resetZ = some (rz.getD (-1)) ∧
      (ad = some true → target = a.target ∧ target.isSome = true ∧ sch = a.scheduleStep ∧ sch.isSome = true) := by
    rcases C' with _ | C' <;> rcases shape with _ | shape <;> rcases bal with _ | bal <;> rcases ad with _ | ad <;>
      rcases co with _ | co <;>
      try simp [buildSampler, buildDLMC, buildLB_eq, need, bind, Except.bind] at hb
    rcases ad with _ | _ <;> rcases target with _ | t <;> rcases sch with _ | sc <;>
      simp [pure, Except.pure] at hb <;> subst hb <;> exact ⟨_, _, rfl, by simp⟩
  obtain ⟨fn, a, hcls, hbal, had, hco, hsol, hna, hrz, had2⟩ := key
  rw [hcls] at hK
  simp only [SamplerClass.kernel] at hK
  by_cases hs : a.solver = "interpolate" ∨ a.solver = "euler_forward"
  swap
  · rw [if_neg hs] at hK
    cases hK
  rw [if_pos hs] at hK
  obtain ⟨h, hw, rfl⟩ := Option.map_eq_some_iff.1 hK
  refine ⟨a.toCfg, fn, h, hbal, weightOf_spec hw, had, hco, hsol, ?_, ?_, fun hadt => ?_, rfl⟩
  · show ((a.n : ℚ) : ℝ) = _
    rw [hna]
  · show a.resetZ.getD 0 = _
    rw [hrz]
    rfl
  · obtain ⟨h1, h2, h3, h4⟩ := had2 hadt
    obtain ⟨t, ht⟩ := Option.isSome_iff_exists.1 h2
    obtain ⟨sc, hsc⟩ := Option.isSome_iff_exists.1 h4
    refine ⟨⟨t, ht, ?_⟩, ?_⟩
    · show ((a.target.getD 0 : ℚ) : ℝ) = _
      rw [← h1, ht]
      rfl
    · show sch = some (a.scheduleStep.getD 0)
      rw [← h3, hsc]
      rfl

/-- **C110 (DMALA).**  The step size is 0.3 unless given, and for an adaptive sampler `schedule_step` is 100 and
`reset_z_est` 20. -/
theorem built_dmala_step {c : RunCfg} {b : Built} (hb : buildSampler c = .ok b) (hn : c.name = "dmala") {D C : ℕ}
    (M : ModelIface D C) (s : DState) {K : (Fin D → ℤ) → (Fin D → ℤ) → ℝ} (hK : b.cls.kernel M (.d s) = some K) :
    ∃ (cfg : DCfg) (fn : String) (h : ℝ → ℝ),
      c.balancing = some fn ∧ (∀ t, applyWeightLog fn t = .ok (h t)) ∧
      c.adaptive = some cfg.adaptive ∧ c.coOpt = some cfg.coOpt ∧
      cfg.stepSize = ((c.stepSize.getD (3 / 10) : ℚ) : ℝ) ∧ cfg.n = 3 ∧
      (c.adaptive = some true → (∃ t, c.target = some t ∧ cfg.target = (t : ℝ)) ∧
        cfg.scheduleStep = c.scheduleStep.getD 100 ∧ cfg.resetZ = c.resetZ.getD 20) ∧
      K = if C = 2 then dmalaBinaryKernel cfg mhTiny llEps h M.val M.grad s
        else dmalaCategKernel cfg mhTiny h C M.valHot M.gradHot s := by
  obtain ⟨shape, C', co, name, ad, target, bal, nf, bs, ss, sch, rz, n, solver, fast, approx⟩ := c
  dsimp only at hn
  subst hn
  have key : ∃ (fn : String) (a : DAttrs), b.cls = .dmala fn a ∧ bal = some fn ∧ ad = some a.adaptive ∧
      co = some a.coOpt ∧ a.stepSize = ss.getD (3 / 10) ∧ a.n = 3 ∧
      (ad = some true → target = a.target ∧ target.isSome = true ∧ a.scheduleStep = some (sch.getD 100) ∧
        a.resetZ = some (rz.getD 20)) := by
    rcases C' with _ | C' <;> rcases shape with _ | shape <;> rcases bal with _ | bal <;> rcases ad with _ | ad <;>
      rcases co with _ | co <;>
      try simp [buildSampler, buildDMALA, buildLB_eq, need, bind, Except.bind] at hb
    rcases ad with _ | _ <;> rcases target with _ | t <;>
      simp [pure, Except.pure] at hb <;> subst hb <;> exact ⟨_, _, rfl, by simp⟩
  obtain ⟨fn, a, hcls, hbal, had, hco, hss, hna, had2⟩ := key
  rw [hcls] at hK
  simp only [SamplerClass.kernel] at hK
  obtain ⟨h, hw, rfl⟩ := Option.map_eq_some_iff.1 hK
  refine ⟨a.toCfg, fn, h, hbal, weightOf_spec hw, had, hco, ?_, ?_, fun hadt => ?_, rfl⟩
  · show ((a.stepSize : ℚ) : ℝ) = _
    rw [hss]
  · show ((a.n : ℚ) : ℝ) = _
    rw [hna]
    norm_num
  · obtain ⟨h1, h2, h3, h4⟩ := had2 hadt
    obtain ⟨t, ht⟩ := Option.isSome_iff_exists.1 h2
    refine ⟨⟨t, ht, ?_⟩, ?_, ?_⟩
    · show ((a.target.getD 0 : ℚ) : ℝ) = _
      rw [← h1, ht]
      rfl
    · show a.scheduleStep.getD 0 = _
      rw [h3]
      rfl
    · show a.resetZ.getD 0 = _
      rw [h4]
      rfl

/-- A DLMC section with the Euler solver. -/
def exEulerCfg : RunCfg where
  name := "dlmc"
  shape := some [2]
  numCategories := some 2
  coOpt := some false
  adaptive := some false
  balancing := some "SQRT"
  solver := some "euler_forward"

/-- The hypotheses hold for every model of two binary sites. -/
example (M : ModelIface 2 2) (s : DState) : 
    ∃ b, buildSampler exEulerCfg = .ok b ∧ ∃ K, b.cls.kernel M (.d s) = some K := by
  refine ⟨⟨[2], 2, .dlmc "SQRT" ⟨false, false, 0, none, none, some (-1), 3, "euler_forward"⟩⟩, rfl, ?_⟩
  have h : (weightOf "SQRT").isSome := (weightOf_isSome "SQRT").2 (by decide)
  obtain ⟨w, hw⟩ := Option.isSome_iff_exists.1 h
  simp only [SamplerClass.kernel, hw]
  exact ⟨_, rfl⟩

end Discs
