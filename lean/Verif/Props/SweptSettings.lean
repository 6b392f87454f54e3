import Verif.Props.Shipped

/-!
# The samplers of the shipped sweeps carry the swept settings (C117)

`Props/Shipped.lean` shows that each swept value reaches the configuration and that a sampler is built.  Here: the sampler
that is built has the swept settings, with the one exception of `sampler_config.adaptive` for Gibbs-with-gradients on
models of more than two categories, which `gwg.build_sampler` does not read.
-/

namespace Discs

/-- The setting a sampler object holds under a key of the sampler configuration, as the attributes of its class show it
(`blockgibbs.py:8-20`, `randomwalk.py:8-16`, `gwg.py:14-27,66-78,173-182`, `path_auxiliary.py:14-30`, `dmala.py:17-35`,
`dlmc.py:17-40`).  `none`: objects of that class have no such setting. -/
def Spec.setting : SamplerClass → Key → Option Val
  | .blockGibbs b, .block_size => some (.int b)
  | .hammingBall b _, .block_size => some (.int b)
  | .randomWalk a _, .adaptive => some (.bool a)
  | .randomWalk _ t, .target_acceptance_rate => some (.float t)
  | .gwgBinary _ _, .adaptive => some (.bool false)
  | .gwgAdaptive _ _, .adaptive => some (.bool true)
  | .gwgBinary fn _, .balancing_fn_type => some (.str fn)
  | .gwgAdaptive fn _, .balancing_fn_type => some (.str fn)
  | .gwgCateg fn, .balancing_fn_type => some (.str fn)
  | .pathAux fn _ _ _, .balancing_fn_type => some (.str fn)
  | .dmala fn _, .balancing_fn_type => some (.str fn)
  | .dlmc fn _, .balancing_fn_type => some (.str fn)
  | .gwgBinary _ k, .num_flips => some (.int k)
  | .pathAux _ none k _, .num_flips => some (.int k)
  | .gwgAdaptive _ t, .target_acceptance_rate => some (.float t)
  | .pathAux _ (some t) _ _, .target_acceptance_rate => some (.float t)
  | .pathAux _ t _ _, .adaptive => some (.bool t.isSome)
  | .pathAux _ _ _ a, .approx_with_grad => some (.bool a)
  | .dmala _ a, .adaptive => some (.bool a.adaptive)
  | .dlmc _ a, .adaptive => some (.bool a.adaptive)
  | .dmala _ a, .step_size => some (.float a.stepSize)
  | .dlmc _ a, .n => some (.float a.n)
  | .dlmc _ a, .solver => some (.str a.solver)
  | _, _ => none

/-- The one swept setting that no sampler reads: `adaptive` of a Gibbs-with-gradients sampler on a model of more than two
categories. -/
def Spec.ignored (c : Cfg Key Val) (k : Key) : Bool :=
  k == .adaptive && c .sampler .name == some (.str "gwg") && c .model .num_categories != some (.int 2)

theorem settingCheck_all : (shippedSweeps.all fun rc => (rc.jobs.getD []).all fun kw =>
    match launch shippedRepo rc "" "" kw with
    | none => true
    | some c => match buildSampler (c.runCfg []) with
      | .error _ => false
      | .ok b => kw.all fun a => a.1.1 != .sampler || a.1.2 == .name ||
          bif Spec.ignored c a.1.2 then Spec.setting b.cls a.1.2 == none
          else (c .sampler a.1.2).isSome && Spec.setting b.cls a.1.2 == c .sampler a.1.2) = true := by
  decide +kernel

theorem setting_check {rc : RunConfig} (hrc : rc ∈ shippedSweeps) {js : List (List Arg)} (hj : rc.jobs = some js)
    {kw : List Arg} (hkw : kw ∈ js) {saveDir folder : String} {c : Cfg Key Val}
    (hc : launch shippedRepo rc saveDir folder kw = some c) (shape : List ℕ) {b : Built}
    (hb : buildSampler (c.runCfg shape) = .ok b) {k : Key} {v : Val} (hv : ((Section.sampler, k), v) ∈ kw)
    (hk : k ≠ .name) :
    (bif Spec.ignored c k then Spec.setting b.cls k == none
      else (c .sampler k).isSome && Spec.setting b.cls k == c .sampler k) = true := by
  obtain ⟨c₀, ha, h₀, -⟩ := job_facts hrc hj hkw hc
  have h := List.all_eq_true.1 settingCheck_all rc hrc
  rw [hj] at h
  have h := List.all_eq_true.1 h kw hkw
  rw [h₀] at h
  dsimp only at h
  rw [runCfg_agree ha] at hb
  have hi : Spec.ignored c k = Spec.ignored c₀ k := by
    unfold Spec.ignored
    rw [ha .sampler .name (by simp), ha .model .num_categories (by simp)]
  rw [hi, ha .sampler k (by simp)]
  cases hb₀ : buildSampler (c₀.runCfg []) with
  | error e => rw [hb₀] at h; simp at h
  | ok b₀ =>
    rw [hb₀] at h
    dsimp only at h
    have e := build_shape (c₀.runCfg []) [] shape hb₀
    have e' : (Except.ok b : Except _ Built) = .ok { b₀ with shape := shape } := hb.symm.trans e
    have e'' : b.cls = b₀.cls := by
      injection e' with e'
      rw [e']
    have h := List.all_eq_true.1 h _ hv
    rw [e'']
    simpa [hk] using h

/-- **C117 (the settings of the samplers).** In every job of every shipped sweep that starts, the sampler that is built
holds each swept sampler setting, as it stands in the configuration of the job; the only swept setting that does not reach
a sampler is `adaptive` for Gibbs-with-gradients on more than two categories. -/
theorem shipped_settings {rc : RunConfig} (hrc : rc ∈ shippedSweeps) {js : List (List Arg)} (hj : rc.jobs = some js)
    {kw : List Arg} (hkw : kw ∈ js) {saveDir folder : String} {c : Cfg Key Val}
    (hc : launch shippedRepo rc saveDir folder kw = some c) (shape : List ℕ) {b : Built}
    (hb : buildSampler (c.runCfg shape) = .ok b) {k : Key} {v : Val} (hv : ((Section.sampler, k), v) ∈ kw)
    (hk : k ≠ .name)
    (hi : ¬ (k = .adaptive ∧ c .sampler .name = some (.str "gwg") ∧ c .model .num_categories ≠ some (.int 2))) :
    ∃ w, c .sampler k = some w ∧ Spec.setting b.cls k = some w := by
  have h := setting_check hrc hj hkw hc shape hb hv hk
  have hi' : Spec.ignored c k = false := by
    rw [Bool.eq_false_iff]
    intro hi'
    apply hi
    simpa [Spec.ignored, and_assoc] using hi'
  rw [hi'] at h
  simp only [cond_false, Bool.and_eq_true, beq_iff_eq] at h
  obtain ⟨w, hw⟩ := Option.isSome_iff_exists.1 h.1
  exact ⟨w, hw, h.2.trans hw⟩

/-- **C117 (an ignored setting).** A swept `adaptive` of Gibbs-with-gradients on more than two categories has no
counterpart in the sampler that is built. -/
theorem shipped_ignored {rc : RunConfig} (hrc : rc ∈ shippedSweeps) {js : List (List Arg)} (hj : rc.jobs = some js)
    {kw : List Arg} (hkw : kw ∈ js) {saveDir folder : String} {c : Cfg Key Val}
    (hc : launch shippedRepo rc saveDir folder kw = some c) (shape : List ℕ) {b : Built}
    (hb : buildSampler (c.runCfg shape) = .ok b) {v : Val} (hv : ((Section.sampler, Key.adaptive), v) ∈ kw)
    (hn : c .sampler .name = some (.str "gwg")) (hm : c .model .num_categories ≠ some (.int 2)) :
    Spec.setting b.cls .adaptive = none := by
  have h := setting_check hrc hj hkw hc shape hb hv (by decide)
  have hi : Spec.ignored c .adaptive = true := by simp [Spec.ignored, hn, hm]
  rw [hi] at h
  simpa using h

theorem lmCheck : (["ebm/lm/base_bert_sampler_sweep.py", "ebm/lm/large_bert_sampler_sweep.py"].all fun f =>
    shippedSweeps.any fun rc => rc.file == f && (rc.jobs.getD []).any fun kw =>
      kw.contains ((Section.sampler, Key.name), Val.str "gwg") &&
      kw.contains ((Section.sampler, Key.adaptive), Val.bool true) &&
      match launch shippedRepo rc "" "" kw with
      | none => false
      | some c => match buildSampler (c.runCfg []) with
        | .ok b => match b.cls with | .gwgCateg _ => true | _ => false
        | .error _ => false) = true := by
  decide +kernel

/-- **C117 (an ignored setting, in the shipped sweeps).** The two language-model sweeps do ask for it: they have a job with
`sampler_config.name = 'gwg'` and `sampler_config.adaptive = True`, which starts and builds the plain categorical
sampler. -/
theorem lm_adaptive_ignored (f : String)
    (hf : f = "ebm/lm/base_bert_sampler_sweep.py" ∨ f = "ebm/lm/large_bert_sampler_sweep.py") :
    ∃ rc ∈ shippedSweeps, rc.file = f ∧ ∃ kw ∈ rc.jobs.getD [],
      ((Section.sampler, Key.name), Val.str "gwg") ∈ kw ∧ ((Section.sampler, Key.adaptive), Val.bool true) ∈ kw ∧
      ∃ c b fn, launch shippedRepo rc "" "" kw = some c ∧ buildSampler (c.runCfg []) = .ok b ∧ b.cls = .gwgCateg fn := by
  have h := List.all_eq_true.1 lmCheck f (by simpa using hf)
  obtain ⟨rc, hrc, h⟩ := List.any_eq_true.1 h
  simp only [Bool.and_eq_true, beq_iff_eq] at h
  obtain ⟨kw, hkw, h'⟩ := List.any_eq_true.1 h.2
  simp only [Bool.and_eq_true, List.contains_iff_mem] at h'
  refine ⟨rc, hrc, h.1, kw, hkw, h'.1.1, h'.1.2, ?_⟩
  have h3 := h'.2
  cases hl : launch shippedRepo rc "" "" kw with
  | none => rw [hl] at h3; simp at h3
  | some c =>
    rw [hl] at h3
    dsimp only at h3
    cases hb : buildSampler (c.runCfg []) with
    | error e => rw [hb] at h3; simp at h3
    | ok b =>
      rw [hb] at h3
      dsimp only at h3
      cases hcl : b.cls <;> rw [hcl] at h3 <;> simp at h3
      exact ⟨c, b, _, rfl, hb, hcl⟩

/-- Settings are not all alike: on a two-category model the same sweep key does select the sampler. -/
example : Spec.setting (.gwgBinary "SQRT" 1) .adaptive = some (.bool false) ∧
    Spec.setting (.gwgAdaptive "SQRT" (574 / 1000)) .adaptive = some (.bool true) := ⟨rfl, rfl⟩

end Discs
