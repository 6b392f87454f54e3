import Verif.Props.LaunchedProblem

/-!
# Overriding the penalty of a combinatorial model (C132)

`model_config.penalty` as an override of a job, for the shipped files and any run configuration.
-/

namespace Discs
open Spec

/-- **C132 (the override is refused).** A job for maximum clique, maximum cut or normalised cut with the override
`model_config.penalty` does not start, whatever else it sets: the model file has no such key. -/
theorem penalty_override_refused {rc : RunConfig} (hm : rc.model ∈ ["maxclique", "maxcut", "normcut"])
    {saveDir folder : String} {kw : List Arg} (hnd : (kw.map Prod.fst).Nodup) {v : Val}
    (hv : ((Section.model, Key.penalty), v) ∈ kw) : launch shippedRepo rc saveDir folder kw = none := by
  cases h : launch shippedRepo rc saveDir folder kw with
  | none => rfl
  | some c =>
    obtain ⟨mf, sf, ef, m, sc, e, h1, -, -, h4, -⟩ := launch_some h
    obtain ⟨old, r, hf, -, -⟩ := swept_value hnd hv (by simp) h4
    simp only [List.mem_cons, List.not_mem_nil, or_false] at hm
    rcases hm with hm | hm | hm <;> rw [hm] at h1 <;> obtain rfl := Option.some.inj h1 <;>
      exact absurd (show (none : Option Val) = some old from hf) (by simp)

/-- What is known about a job with a graph type on the shipped files. -/
theorem graph_job {rc : RunConfig} (hm : rc.model = "mis") {g : String} (hg : rc.graphType = some g) (hg0 : g ≠ "")
    {saveDir folder : String} {kw : List Arg} (hnd : (kw.map Prod.fst).Nodup)
    (hgs : (Section.model, Key.graph_type) ∉ kw.map Prod.fst) {c : Cfg Key Val}
    (hc : launch shippedRepo rc saveDir folder kw = some c) :
    ∃ nm cs gc, shippedRepo.graph nm (.str g) cs = some gc ∧ (∀ k r, gc k = some r → c .model k = some r) ∧
      ∀ s k v, ((s, k), v) ∈ kw → (s, k) ≠ (.experiment, .save_root) → (s, k) ≠ (.experiment, .num_models) →
        (s = .model → gc k = none) → Arrives shippedRepo rc (jobArgs rc saveDir folder kw) c s k v := by
  have hef : ∀ ef, rc.experimentFile shippedRepo = some ef → ∀ t, t ≠ .experiment → ∀ k, ef t k = none := by
    intro ef hf t ht k
    have hq : rc.graph? = some g := by simp [RunConfig.graph?, hg, hg0]
    simp only [RunConfig.experimentFile, hq, shippedRepo, Option.map_eq_some_iff] at hf
    obtain ⟨l, -, rfl⟩ := hf
    cases t
    · rfl
    · rfl
    · exact absurd rfl ht
  obtain ⟨-, nm, cs, gc, h1, -, -, h2, h3⟩ := swept_arrives_graph hc hnd hg hg0 hgs
    (by
      refine ⟨?_, fun ef hf => hef ef hf .model (by simp) _, rfl⟩
      intro mf hmf
      rw [hm] at hmf
      obtain rfl := Option.some.inj hmf
      rfl)
    (by
      intro nm gt cs gc h
      simp only [shippedRepo, shippedGraph] at h
      split at h
      · obtain ⟨g, -, rfl⟩ := Option.map_eq_some_iff.1 h
        rfl
      · simp at h) hef
  exact ⟨nm, cs, gc, h1, h2, h3⟩

/-- **C132 (the override is lost).** A maximum-independent-set job on the SATLIB graphs runs with the penalty 1.0001 of
the graph file, whatever the override `model_config.penalty` says. -/
theorem penalty_override_lost {rc : RunConfig} (hm : rc.model = "mis") (hg : rc.graphType = some "satlib")
    {saveDir folder : String} {kw : List Arg} (hnd : (kw.map Prod.fst).Nodup)
    (hgs : (Section.model, Key.graph_type) ∉ kw.map Prod.fst) {c : Cfg Key Val}
    (hc : launch shippedRepo rc saveDir folder kw = some c) : penaltyCoeff c = 10001 / 10000 := by
  obtain ⟨nm, cs, gc, h1, h2, -⟩ := graph_job hm hg (by decide) hnd hgs hc
  simp only [shippedRepo, shippedGraph] at h1
  split at h1
  · rename_i m g s e
    obtain rfl : g = "satlib" := by injection e with e; exact e.symm
    obtain ⟨gm, hgm, rfl⟩ := Option.map_eq_some_iff.1 h1
    have : gm = cfgSatlib := by
      unfold graphConfig at hgm
      simp +decide only [if_false, if_true] at hgm
      split_ifs at hgm
      exact (Option.some.inj hgm).symm
    subst this
    have hp := h2 .penalty _ rfl
    unfold penaltyCoeff
    rw [hp]
    norm_num [Val.rat?]
  · simp at h1

/-- **C132 (the override takes effect).** On the Erdős–Rényi graphs, whose files set no penalty, the penalty is the
overridden one. -/
theorem penalty_override_er {rc : RunConfig} (hm : rc.model = "mis") {g : String} (hg : rc.graphType = some g)
    (hger : g ∈ ["ertest", "er_density"]) {saveDir folder : String} {kw : List Arg} (hnd : (kw.map Prod.fst).Nodup)
    (hgs : (Section.model, Key.graph_type) ∉ kw.map Prod.fst) {c : Cfg Key Val}
    (hc : launch shippedRepo rc saveDir folder kw = some c) {v : Val} (hv : ((Section.model, Key.penalty), v) ∈ kw) {q : ℚ}
    (hq : v.rat? = some q) : penaltyCoeff c = q := by
  have hg0 : g ≠ "" := by rintro rfl; simp at hger
  obtain ⟨nm, cs, gc, h1, -, h3⟩ := graph_job hm hg hg0 hnd hgs hc
  have hnone : gc .penalty = none := by
    simp only [shippedRepo, shippedGraph] at h1
    split at h1
    · rename_i m g' s e
      obtain rfl : g' = g := by injection e with e; exact e.symm
      obtain ⟨gm, hgm, rfl⟩ := Option.map_eq_some_iff.1 h1
      have : gm.penalty = none := by
        simp only [List.mem_cons, List.not_mem_nil, or_false] at hger
        unfold graphConfig at hgm
        rcases hger with rfl | rfl <;> simp +decide only [if_false, if_true] at hgm <;> split_ifs at hgm <;>
          simp only [cfgErTest, cfgErDensity, Option.bind_eq_bind, Option.bind_eq_some_iff, Option.some.injEq] at hgm <;>
          obtain ⟨r, -, rfl⟩ := hgm <;> rfl
      exact (graph_section gm).2.2.2.2.2.2.2.2.2.2.1 this
    · simp at h1
  obtain ⟨file, old, r, hf, ho, hr, hw⟩ := h3 .model .penalty v hv (by simp) (by simp) fun _ => hnone
  simp only [fileSec, hm] at hf
  obtain rfl := Option.some.inj hf
  have ho' : old = .float (1001 / 1000) := (Option.some.inj ho).symm
  subst ho'
  unfold penaltyCoeff
  rw [hr]
  cases v <;> simp_all [Written, Val.rat?]

/-- A job of each kind: refused, and accepted with the override lost or taken. -/
example : ((launch shippedRepo { swMisSatlibSamplerSweep with sweep := [] } "d" "f"
      [((.sampler, .name), .str "gwg"), ((.model, .penalty), .float 2)]).map penaltyCoeff = some (10001 / 10000)) ∧
    ((launch shippedRepo { swMisErtestSamplerSweep with sweep := [] } "d" "f"
      [((.model, .penalty), .float 2)]).map penaltyCoeff = some 2) ∧
    (launch shippedRepo { swMaxcliqueRbSamplerSweep with sweep := [] } "d" "f" []).isSome := by decide +kernel

end Discs
