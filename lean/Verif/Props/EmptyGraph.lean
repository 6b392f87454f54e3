import Verif.Props.Launcher
import Verif.Model.ShippedFiles

/-!
# An empty graph type loses the experiment configuration (C84, C117)

`main_sampling.get_main_config` merges the experiment configuration early only if the *key* `graph_type` is missing, and
late only if its *value* counts as true.  With the empty text it is merged in neither place.
-/

namespace Discs

open Spec

/-- **C84 (empty graph type).** If the model configuration has the key `graph_type` or `bert_model`, and what is there in
the end counts as false, then nothing of the experiment configuration is used: every section is that of the common
configuration, under the sampler and model configurations. -/
theorem mainConfig_lost {K V : Type} [DecidableEq K] (ks : ConfigKeys K) (truthy : V → Bool)
    (graphCfg : V → V → V → Option (Sec K V)) (coDefault : Sec K V) (common exp : Cfg K V)
    (samplerCfg modelCfg : Sec K V)
    (hp : modelCfg ks.graphType ≠ none ∨ modelCfg ks.bertModel ≠ none)
    (hg : ∀ v, Spec.firstWith [modelCfg, common .model] ks.graphType = some v → truthy v = false)
    (hb : ∀ v, Spec.firstWith [modelCfg, common .model] ks.bertModel = some v → truthy v = false) :
    ∃ c, mainConfig ks truthy graphCfg coDefault common exp samplerCfg modelCfg = some c ∧
      ∀ k, c .model k = Spec.firstWith [modelCfg, common .model] k ∧
        c .sampler k = Spec.firstWith [samplerCfg, common .sampler] k ∧
        c .experiment k = common .experiment k := by
  have hm : ∀ k, ((common.updateSec .sampler samplerCfg).updateSec .model modelCfg) .model k =
      Spec.firstWith [modelCfg, common .model] k := by
    intro k
    rw [firstWith_two]
    simp [Cfg.updateSec, Sec.update]
  refine ⟨(common.updateSec .sampler samplerCfg).updateSec .model modelCfg, ?_, ?_⟩
  · have off : ∀ k, (∀ v, Spec.firstWith [modelCfg, common .model] k = some v → truthy v = false) →
        getTrue truthy (((common.updateSec .sampler samplerCfg).updateSec .model modelCfg) .model) k = false := by
      intro k hk
      unfold getTrue
      rw [hm]
      cases h : Spec.firstWith [modelCfg, common .model] k with
      | none => rfl
      | some v => exact hk v h
    have hif : ((modelCfg ks.graphType).isNone && (modelCfg ks.bertModel).isNone) = false := by
      cases h1 : modelCfg ks.graphType <;> cases h2 : modelCfg ks.bertModel <;> simp_all
    simp only [mainConfig, hif, Bool.false_eq_true, if_false]
    rw [if_neg (by rw [off _ hg]; simp)]
    simp [off _ hb]
  · intro k
    refine ⟨hm k, ?_, ?_⟩
    · rw [firstWith_two]
      simp [Cfg.updateSec, Sec.update]
    · simp [Cfg.updateSec]

/-- **C117 (empty graph type, refuted).** A job whose `model_config.graph_type` is the empty text, on a model without
language model, runs with the experiment section of the common configuration: whatever it sweeps of the experiment, and the
folder the launcher made for it, are lost. -/
theorem swept_lost_empty_graph {R : Repo} {rc : RunConfig} {saveDir folder : String} {kw : List Arg} {c : Cfg Key Val}
    (h : launch R rc saveDir folder kw = some c) (hnd : (kw.map Prod.fst).Nodup)
    (hg : ((Section.model, Key.graph_type), Val.str "") ∈ kw)
    (hgs : ∀ mf v, R.model rc.model = some mf → mf .graph_type = some v → ∃ t, v = .str t)
    (hb : Absent R rc .bert_model) (k : Key) :
    c .experiment k = R.common .experiment k := by
  have hn := jobArgs_nodup rc saveDir folder hnd
  obtain ⟨mf, sf, ef, m, sc, e, h1, h2, h3, h4, h5, h6, h7⟩ := launch_some h
  have hm0 : m .graph_type = some (.str "") := by
    obtain ⟨old, r, hf, ho, hw⟩ := swept_value hnd hg (by simp) h4
    obtain ⟨t, rfl⟩ := hgs mf old h1 hf
    rw [ho]
    cases r <;> simp_all [Written]
  obtain ⟨c', hc', hk⟩ := mainConfig_lost launchKeys Val.truthy R.graph R.coDefault R.common
    (fun t => if t = .experiment then e else ef t) sc m (Or.inl (by simp [launchKeys, hm0]))
    (fun v hv => by
      rw [firstWith_two] at hv
      simp only [launchKeys, hm0, Option.some_or, Option.some.injEq] at hv
      subst hv
      rfl)
    (fun v hv => by
      rw [firstWith_two] at hv
      have a := overrides_absent (argsOf_nodup .model hn) h4 (hb.1 mf h1)
      have d := hb.2.2
      simp [launchKeys, a, d] at hv)
  obtain rfl : c' = c := Option.some.inj (hc'.symm.trans h7)
  exact (hk k).2.2

/-- Such a job starts: maximum cut with an empty graph type.  Its sweep sets the batch size to 7, the configuration it
runs with has the common value; without the empty graph type the 7 arrives. -/
theorem empty_graph_witness :
    ((launch shippedRepo { file := "", dir := "", model := "maxcut", sampler := "gwg", graphType := none, sweep := [] } "" ""
      [((.model, .graph_type), .str ""), ((.experiment, .batch_size), .int 7)]).bind fun c =>
        c .experiment .batch_size) = some (.int 100) ∧
    ((launch shippedRepo { file := "", dir := "", model := "ising", sampler := "gwg", graphType := none, sweep := [] } "" ""
      [((.experiment, .batch_size), .int 7)]).bind fun c => c .experiment .batch_size) = some (.int 7) := by
  decide +kernel

end Discs
