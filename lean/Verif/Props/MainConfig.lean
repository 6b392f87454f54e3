import Verif.Model.MainConfig
import Mathlib.Algebra.BigOperators.Group.List.Basic
import Mathlib.Algebra.BigOperators.Ring.List
import Mathlib.Algebra.Order.Ring.Nat
import Mathlib.Data.List.Nodup
import Mathlib.Data.List.Forall2
import Mathlib.Algebra.Group.Action.Defs

/-!
# C84: precedence of configurations; sweeps
-/

namespace Discs

namespace Spec

/-- The value of key `k` in the first of the sources that has the key. -/
def firstWith {K V : Type} (sources : List (K → Option V)) (k : K) : Option V :=
  sources.findSome? fun s => s k

end Spec

variable {K V : Type} [DecidableEq K]

omit [DecidableEq K] in
theorem firstWith_two (a b : Sec K V) (k : K) : Spec.firstWith [a, b] k = (a k).or (b k) := by
  simp only [Spec.firstWith, List.findSome?_cons, List.findSome?_nil]
  cases a k <;> cases b k <;> rfl

omit [DecidableEq K] in
theorem firstWith_three (a b c : Sec K V) (k : K) : Spec.firstWith [a, b, c] k = (a k).or ((b k).or (c k)) := by
  simp only [Spec.firstWith, List.findSome?_cons, List.findSome?_nil]
  cases a k <;> cases b k <;> cases c k <;> rfl

omit [DecidableEq K] in
theorem firstWith_four (a b c d : Sec K V) (k : K) :
    Spec.firstWith [a, b, c, d] k = (a k).or ((b k).or ((c k).or (d k))) := by
  simp only [Spec.firstWith, List.findSome?_cons, List.findSome?_nil]
  cases a k <;> cases b k <;> cases c k <;> cases d k <;> rfl

/-- **C84.** Models without the keys `graph_type` and `bert_model`: the model configuration wins over the
experiment configuration, which wins over the common defaults; same for the sampler. -/
theorem mainConfig_plain (ks : ConfigKeys K) (truthy : V → Bool)
    (graphCfg : V → V → V → Option (Sec K V)) (coDefault : Sec K V) (common exp : Cfg K V)
    (samplerCfg modelCfg : Sec K V)
    (h1 : modelCfg ks.graphType = none) (h2 : modelCfg ks.bertModel = none)
    (h3 : exp .model ks.graphType = none) (h4 : exp .model ks.bertModel = none)
    (h5 : common .model ks.graphType = none) (h6 : common .model ks.bertModel = none) :
    ∃ c, mainConfig ks truthy graphCfg coDefault common exp samplerCfg modelCfg = some c ∧
      ∀ k, c .model k = Spec.firstWith [modelCfg, exp .model, common .model] k ∧
        c .sampler k = Spec.firstWith [samplerCfg, exp .sampler, common .sampler] k ∧
        c .experiment k = Spec.firstWith [exp .experiment, common .experiment] k := by
  refine ⟨((common.update exp).updateSec .sampler samplerCfg).updateSec .model modelCfg, ?_, ?_⟩
  · simp [mainConfig, h1, h2, h3, h4, h5, h6, getTrue, Cfg.updateSec, Cfg.update, Sec.update]
  · intro k
    rw [firstWith_three, firstWith_three, firstWith_two]
    refine ⟨?_, ?_, ?_⟩ <;> simp [Cfg.updateSec, Cfg.update, Sec.update]

/-- **C84.** Graph models: the experiment configuration is merged last in every section, over the graph
configuration and the model configuration, and `num_models` of the experiment is that of the
model. -/
theorem mainConfig_graph (ks : ConfigKeys K) (truthy : V → Bool)
    (graphCfg : V → V → V → Option (Sec K V)) (coDefault : Sec K V) (common exp : Cfg K V)
    (samplerCfg modelCfg g : Sec K V) (nm gt cs : V)
    (hg : modelCfg ks.graphType = some gt) (ht : truthy gt = true)
    (hn : Spec.firstWith [modelCfg, common .model] ks.name = some nm)
    (hc : Spec.firstWith [modelCfg, common .model] ks.cfgStr = some cs)
    (hgr : graphCfg nm gt cs = some g)
    (hb : Spec.firstWith [exp .model, g, modelCfg, common .model] ks.bertModel = none) :
    let model := Spec.firstWith [exp .model, g, modelCfg, common .model]
    (model ks.numModels = none →
      mainConfig ks truthy graphCfg coDefault common exp samplerCfg modelCfg = none) ∧
    ∀ n, model ks.numModels = some n →
      ∃ c, mainConfig ks truthy graphCfg coDefault common exp samplerCfg modelCfg = some c ∧
        ∀ k, c .model k = model k ∧
          c .sampler k = Spec.firstWith [exp .sampler, samplerCfg, common .sampler] k ∧
          c .experiment k = if k = ks.numModels then some n
            else Spec.firstWith [exp .experiment, coDefault, common .experiment] k := by
  intro model
  simp only [firstWith_four, firstWith_two] at hn hc hb
  have hstart : mainConfig ks truthy graphCfg coDefault common exp samplerCfg modelCfg
      = (model ks.numModels).map fun n =>
        Cfg.setKey (((((common.updateSec .sampler samplerCfg).updateSec .model modelCfg).updateSec .model
          g).updateSec .experiment coDefault).update exp) .experiment ks.numModels n := by
    unfold mainConfig
    simp only [hg, Option.isNone_some, Bool.false_and, Bool.false_eq_true, if_false]
    have hgt : getTrue truthy ((common.updateSec .sampler samplerCfg).updateSec .model modelCfg .model)
        ks.graphType = true := by
      simp [getTrue, Cfg.updateSec, Sec.update, hg, ht]
    have hgv : (common.updateSec .sampler samplerCfg).updateSec .model modelCfg .model ks.graphType
        = some gt := by
      simp [Cfg.updateSec, Sec.update, hg]
    have hnv : (common.updateSec .sampler samplerCfg).updateSec .model modelCfg .model ks.name = some nm := by
      simp [Cfg.updateSec, Sec.update, hn]
    have hcv : (common.updateSec .sampler samplerCfg).updateSec .model modelCfg .model ks.cfgStr
        = some cs := by
      simp [Cfg.updateSec, Sec.update, hc]
    rw [if_pos hgt, hgv, hnv, hcv]
    simp only [Option.bind_eq_bind, Option.bind_some, hgr]
    have hmodel : ∀ k, (((((common.updateSec .sampler samplerCfg).updateSec .model modelCfg).updateSec .model
          g).updateSec .experiment coDefault).update exp) .model k = model k := by
      intro k
      simp only [model, firstWith_four]
      simp [Cfg.update, Cfg.updateSec, Sec.update]
    rw [hmodel]
    cases hm : model ks.numModels with
    | none => simp
    | some n =>
      simp only [Option.bind_some, Option.map_some]
      rw [if_neg]
      have : ∀ k, (Cfg.setKey (((((common.updateSec .sampler samplerCfg).updateSec .model
          modelCfg).updateSec .model g).updateSec .experiment coDefault).update exp) .experiment
          ks.numModels n) .model k = model k := by
        intro k; rw [← hmodel]; simp [Cfg.setKey]
      simp only [getTrue, this]
      have : model ks.bertModel = none := by simp only [model, firstWith_four]; exact hb
      simp [this]
  refine ⟨fun hm => by rw [hstart, hm]; rfl, fun n hm => ⟨_, by rw [hstart, hm]; rfl, fun k => ?_⟩⟩
  refine ⟨?_, ?_, ?_⟩
  · simp only [model, firstWith_four]
    simp [Cfg.setKey, Cfg.update, Cfg.updateSec, Sec.update]
  · rw [firstWith_three]
    simp [Cfg.setKey, Cfg.update, Cfg.updateSec, Sec.update]
  · rw [firstWith_three]
    by_cases hk : k = ks.numModels
    · simp [Cfg.setKey, hk]
    · simp [Cfg.setKey, Cfg.update, Cfg.updateSec, Sec.update, hk]

/-- **C84.** Language models (no graph): the experiment configuration is merged last in every section. -/
theorem mainConfig_bert (ks : ConfigKeys K) (truthy : V → Bool)
    (graphCfg : V → V → V → Option (Sec K V)) (coDefault : Sec K V) (common exp : Cfg K V)
    (samplerCfg modelCfg : Sec K V) (b : V)
    (hg : Spec.firstWith [modelCfg, common .model] ks.graphType = none)
    (hb : modelCfg ks.bertModel = some b) (ht : truthy b = true) :
    ∃ c, mainConfig ks truthy graphCfg coDefault common exp samplerCfg modelCfg = some c ∧
      ∀ k, c .model k = Spec.firstWith [exp .model, modelCfg, common .model] k ∧
        c .sampler k = Spec.firstWith [exp .sampler, samplerCfg, common .sampler] k ∧
        c .experiment k = Spec.firstWith [exp .experiment, common .experiment] k := by
  have hg' : (modelCfg ks.graphType).or (common .model ks.graphType) = none := by
    simp only [Spec.firstWith, List.findSome?_cons, List.findSome?_nil] at hg
    cases h1 : modelCfg ks.graphType <;> cases h2 : common .model ks.graphType <;> simp_all
  refine ⟨((common.updateSec .sampler samplerCfg).updateSec .model modelCfg).update exp, ?_, ?_⟩
  · unfold mainConfig
    simp only [hb, Option.isNone_some, Bool.and_false, Bool.false_eq_true, if_false]
    have h1 : ¬ getTrue truthy ((common.updateSec .sampler samplerCfg).updateSec .model modelCfg .model)
        ks.graphType = true := by
      simp [getTrue, Cfg.updateSec, Sec.update, hg']
    rw [if_neg h1]
    simp only [Option.bind_eq_bind, Option.bind_some]
    rw [if_pos]
    simp [getTrue, Cfg.updateSec, Sec.update, hb, ht]
  · intro k
    rw [firstWith_three, firstWith_three, firstWith_two]
    refine ⟨?_, ?_, ?_⟩ <;> simp [Cfg.updateSec, Cfg.update, Sec.update]

/-- **C84, refuted part.** A model configuration that has one of the keys with an empty value: the
experiment configuration is ignored altogether. -/
theorem mainConfig_ignored (ks : ConfigKeys K) (truthy : V → Bool)
    (graphCfg : V → V → V → Option (Sec K V)) (coDefault : Sec K V) (common exp exp' : Cfg K V)
    (samplerCfg modelCfg : Sec K V) (v : V)
    (hkey : modelCfg ks.graphType = some v ∨ modelCfg ks.bertModel = some v)
    (hg : getTrue truthy (Sec.update (common .model) modelCfg) ks.graphType = false)
    (hb : getTrue truthy (Sec.update (common .model) modelCfg) ks.bertModel = false) :
    mainConfig ks truthy graphCfg coDefault common exp samplerCfg modelCfg
      = mainConfig ks truthy graphCfg coDefault common exp' samplerCfg modelCfg := by
  have h : ((modelCfg ks.graphType).isNone && (modelCfg ks.bertModel).isNone) = false := by
    rcases hkey with h | h <;> simp [h]
  have hm : (common.updateSec .sampler samplerCfg).updateSec .model modelCfg .model
      = Sec.update (common .model) modelCfg := by
    funext k; simp [Cfg.updateSec]
  unfold mainConfig
  simp only [h, Bool.false_eq_true, if_false, hm, hg, hb, Option.bind_eq_bind, Option.bind_some]

/-- `update_save_dir` changes the save root of local runs only. -/
theorem updateSaveDir_spec (ks : ConfigKeys K) (join : V → V) (local_ : Bool) (c c' : Cfg K V)
    (h : updateSaveDir ks join local_ c = some c') :
    (∀ s k, ¬ (s = .experiment ∧ k = ks.saveRoot) → c' s k = c s k) ∧
      (local_ = false → c' = c) ∧
      (local_ = true → ∀ d, Spec.firstWith [fun _ => c .model ks.saveDirName, fun _ => c .model ks.name]
        ks.name = some d → c' .experiment ks.saveRoot = some (join d)) := by
  unfold updateSaveDir at h
  cases local_ with
  | false =>
    simp only [Bool.false_eq_true, if_false, Option.some.injEq] at h
    subst h
    exact ⟨fun _ _ _ => rfl, fun _ => rfl, nofun⟩
  | true =>
    simp only [if_true] at h
    cases hn : c .model ks.name with
    | none => rw [hn] at h; cases h
    | some nm =>
      rw [hn] at h
      simp only [Option.bind_eq_bind, Option.bind_some, Option.pure_def, Option.some.injEq] at h
      subst h
      refine ⟨fun s k hsk => ?_, nofun, fun _ d hd => ?_⟩
      · simp [Cfg.setKey, hsk]
      · have : ((c .model ks.saveDirName).getD nm) = d := by
          simp only [Spec.firstWith, List.findSome?_cons] at hd
          cases hs : c .model ks.saveDirName with
          | none => rw [hs] at hd; simpa using hd
          | some x => rw [hs] at hd; simpa using hd
        simp [Cfg.setKey, this]

/-! ### Sweeps -/

omit [DecidableEq K] in
theorem mem_cartesian {α : Type} (ls : List (List α)) :
    ∀ r, r ∈ cartesian ls ↔ List.Forall₂ (fun a l => a ∈ l) r ls := by
  induction ls with
  | nil => intro r; simp [cartesian]
  | cons l ls ih =>
    intro r
    simp only [cartesian, List.mem_flatMap, List.mem_map, ih]
    constructor
    · rintro ⟨a, ha, r', hr', rfl⟩
      exact List.Forall₂.cons ha hr'
    · intro h
      cases h with
      | cons ha hr => exact ⟨_, ha, _, hr, rfl⟩

theorem cartesian_length {α : Type} (ls : List (List α)) :
    (cartesian ls).length = (ls.map List.length).prod := by
  induction ls with
  | nil => rfl
  | cons l ls ih =>
    simp only [cartesian, List.length_flatMap, List.length_map, ih, List.map_cons, List.prod_cons]
    rw [List.map_const', List.sum_replicate, smul_eq_mul]

theorem cartesian_nodup {α : Type} (ls : List (List α)) (h : ∀ l ∈ ls, l.Nodup) :
    (cartesian ls).Nodup := by
  induction ls with
  | nil => simp [cartesian]
  | cons l ls ih =>
    rw [cartesian, List.nodup_flatMap]
    refine ⟨fun a _ => ?_, ?_⟩
    · refine List.Nodup.map (fun r r' e => (List.cons.inj e).2) (ih fun l hl => h l (List.mem_cons_of_mem _ hl))
    · refine (h l List.mem_cons_self).imp fun {a b} hab => ?_
      rw [Function.onFun, List.disjoint_left]
      rintro r hr hr'
      obtain ⟨_, _, rfl⟩ := List.mem_map.1 hr
      obtain ⟨_, _, e⟩ := List.mem_map.1 hr'
      exact hab (List.cons.inj e).1.symm

omit [DecidableEq K] in
/-- **C84.** A sweep runs every combination of the listed values: the jobs are exactly the assignments of
one listed value to every key, their number is the product of the numbers of values, and none is
run twice if no value is listed twice. -/
theorem getSweeps_spec (sweep : List (K × List V)) (h0 : sweep ≠ []) :
    ∃ jobs, getSweeps sweep = some jobs ∧
      (∀ j, j ∈ jobs ↔ List.Forall₂ (fun kv ks => kv.1 = ks.1 ∧ kv.2 ∈ ks.2) j sweep) ∧
      jobs.length = (sweep.map fun s => s.2.length).prod ∧
      ((∀ s ∈ sweep, s.2.Nodup) → jobs.Nodup) := by
  have he : sweep.isEmpty = false := by cases sweep <;> simp_all
  refine ⟨_, by rw [getSweeps, he]; rfl, ?_, ?_, ?_⟩
  · intro j
    simp only [List.mem_map, mem_cartesian]
    constructor
    · rintro ⟨v, hv, rfl⟩
      clear he h0
      induction sweep generalizing v with
      | nil => cases hv; exact List.Forall₂.nil
      | cons s sweep ih =>
        cases hv with
        | cons ha hr => exact List.Forall₂.cons ⟨rfl, ha⟩ (ih _ hr)
    · intro hj
      refine ⟨j.map Prod.snd, ?_, ?_⟩
      · clear he h0
        induction hj with
        | nil => exact List.Forall₂.nil
        | cons ha _ ih => exact List.Forall₂.cons ha.2 ih
      · clear he h0
        induction hj with
        | nil => rfl
        | cons ha _ ih =>
          rw [List.map_cons, List.map_cons, List.zip_cons_cons, ih, ← ha.1]
  · rw [List.length_map, cartesian_length, List.map_map]; rfl
  · intro hnd
    refine List.Nodup.map_on ?_ (cartesian_nodup _ fun l hl => ?_)
    · intro v hv v' hv' e
      have hl : ∀ v ∈ cartesian (sweep.map Prod.snd), v.length = (sweep.map Prod.fst).length := by
        intro v hv
        have := ((mem_cartesian _ v).1 hv).length_eq
        simpa using this
      have := congrArg (List.map Prod.snd) e
      rwa [List.map_snd_zip (hl v hv).le, List.map_snd_zip (hl v' hv').le] at this
    · obtain ⟨s, hs, rfl⟩ := List.mem_map.1 hl
      exact hnd s hs

omit [DecidableEq K] in
/-- An empty sweep dictionary, or no sweep at all, raises; a key with no values yields no job. -/
theorem getSweeps_edge : getSweeps ([] : List (K × List V)) = none ∧
    allSweeps ([] : List (List (K × List V))) = none ∧
    ∀ sweep : List (K × List V), (∃ s ∈ sweep, s.2 = []) → getSweeps sweep = some [] := by
  refine ⟨rfl, rfl, fun sweep ⟨s, hs, h⟩ => ?_⟩
  obtain ⟨jobs, hj, _, hlen, _⟩ := getSweeps_spec sweep (List.ne_nil_of_mem hs)
  have : (sweep.map fun s => s.2.length).prod = 0 := by
    exact List.prod_eq_zero (List.mem_map.2 ⟨s, hs, by rw [h]; rfl⟩)
  rw [this, List.length_eq_zero_iff] at hlen
  rw [hj, hlen]

/-! ### Examples -/

/-- Keys of the examples. -/
def exKeys : ConfigKeys String :=
  ⟨"name", "graph_type", "bert_model", "cfg_str", "num_models", "save_dir_name", "save_root"⟩

/-- A section from a list. -/
def exSec (l : List (String × String)) : Sec String String := fun k => l.lookup k

/-- The common defaults, reduced to the entries of interest. -/
def exCommon : Cfg String String := fun
  | .model => exSec [("name", ""), ("data_root", "sco")]
  | .sampler => exSec [("name", "")]
  | .experiment => exSec [("name", "Sampling_Experiment"), ("num_models", "1")]

/-- The graph model of `models/configs/maxcut_config.py`. -/
def exModel : Sec String String := exSec [("name", "maxcut"), ("graph_type", "ba"), ("cfg_str", "r-ba")]

/-- The graph configuration. -/
def exGraph : String → String → String → Option (Sec String String) := fun _ _ _ =>
  some (exSec [("num_models", "128")])

/-- The merge of the examples. -/
def exMain (exp : Cfg String String) (m : Sec String String) : Option (Cfg String String) :=
  mainConfig exKeys (fun v => v ≠ "") exGraph (exSec [("name", "CO_Experiment")]) exCommon exp
    (exSec [("name", "gwg")]) m

/-- **C84, refuted part.** With the default value of `--config` (the common defaults) a graph model and its
sampler lose their names. -/
theorem mainConfig_default_erases :
    (exMain exCommon exModel).map (fun c => (c .model "name", c .sampler "name")) = some (some "", some "") := by
  decide

/-- With an experiment section only, everything is as configured. -/
example : (exMain (fun | .experiment => exSec [("batch_size", "32"), ("num_models", "7")] | _ => exSec [])
      exModel).map (fun c => [c .model "name", c .sampler "name", c .experiment "name",
        c .experiment "num_models", c .experiment "batch_size"])
    = some [some "maxcut", some "gwg", some "CO_Experiment", some "128", some "32"] := by
  decide

/-- A sweep over two keys. -/
example : getSweeps [("name", ["gwg", "pas"]), ("adaptive", ["True", "False"])]
    = some [[("name", "gwg"), ("adaptive", "True")], [("name", "gwg"), ("adaptive", "False")],
        [("name", "pas"), ("adaptive", "True")], [("name", "pas"), ("adaptive", "False")]] := by
  decide

end Discs
