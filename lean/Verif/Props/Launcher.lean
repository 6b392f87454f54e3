import Verif.Model.Launcher
import Verif.Props.MainConfig
import Mathlib.Data.List.Nodup

/-!
# C117: the configuration with which a job starts
-/

namespace Discs

namespace Spec

/-- An override `new` can be read where the file has `old`: it has the same type, or it is an integer for a float, or
the file has a string. -/
def Fits : Val → Val → Prop
  | .int _, .int _ => True
  | .float _, .float _ => True
  | .float _, .int _ => True
  | .bool _, .bool _ => True
  | .tuple _, .tuple _ => True
  | .str _, _ => True
  | _, _ => False

/-- A file accepts the overrides: it has their keys, with values of fitting types. -/
def Accepts (file : Sec Key Val) (as : List (Key × Val)) : Prop :=
  ∀ a ∈ as, ∃ old, file a.1 = some old ∧ Fits old a.2

/-- The value that an override leaves in a section: the number of an integer where the file has a float, the text where
the file has a string, and the value itself otherwise. -/
def Written : Val → Val → Val → Prop
  | .float _, .int z, r => r = .float z
  | .str _, .str s, r => r = .str s
  | .str _, v, r => r = .str v.text
  | _, v, r => r = v

end Spec

open Spec

theorem parseAs_isSome {old new : Val} : (Val.parseAs old new).isSome ↔ Fits old new := by
  cases old <;> cases new <;> simp [Val.parseAs, Fits]

theorem parseAs_written {old new r : Val} (h : Val.parseAs old new = some r) : Written old new r := by
  cases old <;> cases new <;> simp_all [Val.parseAs, Written, Val.text, eq_comm]

/-- What the overrides make of a section. -/
def overridden (file : Sec Key Val) (as : List (Key × Val)) : Sec Key Val := fun k =>
  match as.lookup k with
  | some v => (file k).bind fun old => Val.parseAs old v
  | none => file k

theorem overrides_some (as : List (Key × Val)) (hnd : (as.map Prod.fst).Nodup) :
    ∀ file : Sec Key Val, Accepts file as → file.overrides as = some (overridden file as) := by
  induction as with
  | nil => intro file _; rfl
  | cons a as ih =>
    intro file h
    rw [List.map_cons, List.nodup_cons] at hnd
    obtain ⟨old, ho, hf⟩ := h a List.mem_cons_self
    obtain ⟨v, hv⟩ := Option.isSome_iff_exists.1 (parseAs_isSome.2 hf)
    have hne : ∀ b ∈ as, b.1 ≠ a.1 := fun b hb hba => hnd.1 (hba ▸ List.mem_map_of_mem hb)
    have h1 : Sec.override file a = some (fun k => if k = a.1 then some v else file k) := by
      simp [Sec.override, ho, hv]
    have h2 : Accepts (fun k => if k = a.1 then some v else file k) as := by
      intro b hb
      obtain ⟨o, h3, h4⟩ := h b (List.mem_cons_of_mem _ hb)
      exact ⟨o, by simp [hne b hb, h3], h4⟩
    have h3 := ih hnd.2 _ h2
    unfold Sec.overrides at h3 ⊢
    rw [List.foldlM_cons, h1]
    simp only [Option.bind_eq_bind, Option.bind_some]
    rw [h3]
    congr 1
    funext k
    unfold overridden
    rw [List.lookup_cons]
    by_cases hk : k = a.1
    · subst hk
      have : as.lookup a.1 = none := List.lookup_eq_none_iff.2 fun p hp => by simpa using (hne p hp).symm
      simp [this, ho, hv]
    · have : (k == a.1) = false := by simpa using hk
      simp [this, hk]

theorem overrides_none (as : List (Key × Val)) (hnd : (as.map Prod.fst).Nodup) :
    ∀ file : Sec Key Val, ¬ Accepts file as → file.overrides as = none := by
  induction as with
  | nil => intro file h; exact absurd (fun a ha => by simp at ha) h
  | cons a as ih =>
    intro file h
    rw [List.map_cons, List.nodup_cons] at hnd
    have hne : ∀ b ∈ as, b.1 ≠ a.1 := fun b hb hba => hnd.1 (hba ▸ List.mem_map_of_mem hb)
    unfold Sec.overrides
    rw [List.foldlM_cons]
    cases hv : Sec.override file a with
    | none => rfl
    | some s =>
      simp only [Option.bind_eq_bind, Option.bind_some]
      refine ih hnd.2 s fun hacc => h ?_
      unfold Sec.override at hv
      cases ho : file a.1 with
      | none => simp [ho] at hv
      | some old =>
        cases hp : Val.parseAs old a.2 with
        | none => simp [ho, hp] at hv
        | some v =>
          simp only [ho, hp, Option.bind_eq_bind, Option.bind_some, pure, Option.some.injEq] at hv
          subst hv
          intro b hb
          rcases List.mem_cons.1 hb with rfl | hb
          · exact ⟨old, ho, parseAs_isSome.1 (by rw [hp]; rfl)⟩
          · obtain ⟨o, h3, h4⟩ := hacc b hb
            exact ⟨o, by simpa [hne b hb] using h3, h4⟩

/-- **C117 (one flag).** A file takes overrides of different keys exactly if it has all the keys with fitting types;
then every overridden key has the value read, all other keys the value of the file. -/
theorem overrides_spec (file : Sec Key Val) (as : List (Key × Val)) (hnd : (as.map Prod.fst).Nodup) :
    ((file.overrides as).isSome ↔ Accepts file as) ∧
    ∀ s, file.overrides as = some s →
      (∀ k v old, (k, v) ∈ as → file k = some old → ∃ r, s k = some r ∧ Written old v r) ∧
      ∀ k, k ∉ as.map Prod.fst → s k = file k := by
  by_cases h : Accepts file as
  · have hs := overrides_some as hnd file h
    refine ⟨by simp [hs, h], fun s hs' => ?_⟩
    obtain rfl : overridden file as = s := Option.some.inj (hs.symm.trans hs')
    refine ⟨fun k v old hkv ho => ?_, fun k hk => ?_⟩
    · obtain ⟨o, h1, h2⟩ := h _ hkv
      obtain rfl : o = old := Option.some.inj (h1.symm.trans ho)
      obtain ⟨r, hr⟩ := Option.isSome_iff_exists.1 (parseAs_isSome.2 h2)
      refine ⟨r, ?_, parseAs_written hr⟩
      have hl : as.lookup k = some v := by
        clear hs hs' h h1 h2 hr
        induction as with
        | nil => simp at hkv
        | cons a as ih =>
          rw [List.map_cons, List.nodup_cons] at hnd
          rw [List.lookup_cons]
          rcases List.mem_cons.1 hkv with rfl | hm
          · simp
          · have : k ≠ a.1 := fun e => hnd.1 (e ▸ List.mem_map_of_mem hm)
            have : (k == a.1) = false := by simpa using this
            rw [this]
            exact ih hnd.2 hm
      simp only [overridden, hl]
      simp only at h1
      rw [h1]
      exact hr
    · have : as.lookup k = none := List.lookup_eq_none_iff.2 fun p hp => by
        have : k ≠ p.1 := fun e => hk (e ▸ List.mem_map_of_mem hp)
        simpa using this
      simp [overridden, this]
  · have hs := overrides_none as hnd file h
    exact ⟨by simp [hs, h], fun s hs' => by simp [hs] at hs'⟩

/-! ### The overrides of a job -/

theorem jobArgs_keys (rc : RunConfig) (saveDir folder : String) (kw : List Arg) :
    (jobArgs rc saveDir folder kw).map Prod.fst =
      ((rc.baseArgs saveDir).filter (fun a => a.1 ∉ kw.map Prod.fst)).map Prod.fst ++ kw.map Prod.fst := by
  unfold jobArgs
  rw [List.map_map, ← List.map_append]
  refine List.map_congr_left fun a _ => ?_
  simp only [Function.comp]
  split <;> rfl

theorem jobArgs_nodup (rc : RunConfig) (saveDir folder : String) {kw : List Arg} (h : (kw.map Prod.fst).Nodup) :
    ((jobArgs rc saveDir folder kw).map Prod.fst).Nodup := by
  rw [jobArgs_keys, List.nodup_append]
  refine ⟨?_, h, ?_⟩
  · have : ((rc.baseArgs saveDir).map Prod.fst).Nodup := by
      unfold RunConfig.baseArgs
      split <;> simp
    exact this.sublist (List.filter_sublist.map _)
  · rintro a ha b hb rfl
    obtain ⟨x, hx, rfl⟩ := List.mem_map.1 ha
    have := (List.mem_filter.1 hx).2
    simp only [decide_eq_true_eq] at this
    exact this hb

theorem argsOf_nodup (s : Section) {args : List Arg} (h : (args.map Prod.fst).Nodup) :
    ((argsOf s args).map Prod.fst).Nodup := by
  induction args with
  | nil => simp [argsOf]
  | cons a args ih =>
    rw [List.map_cons, List.nodup_cons] at h
    unfold argsOf
    rw [List.filterMap_cons]
    by_cases hs : a.1.1 = s
    · simp only [hs, if_true, List.map_cons, List.nodup_cons]
      refine ⟨fun hm => h.1 ?_, ih h.2⟩
      obtain ⟨b, hb, hba⟩ := List.mem_map.1 hm
      obtain ⟨c, hc, hcb⟩ := List.mem_filterMap.1 hb
      split_ifs at hcb with hcs
      simp only [Option.some.injEq] at hcb
      subst hcb
      exact List.mem_map.2 ⟨c, hc, Prod.ext (hcs.trans hs.symm) hba⟩
    · simp only [hs, if_false]
      exact ih h.2

theorem mem_argsOf {s : Section} {k : Key} {v : Val} {args : List Arg} :
    (k, v) ∈ argsOf s args ↔ ((s, k), v) ∈ args := by
  unfold argsOf
  rw [List.mem_filterMap]
  constructor
  · rintro ⟨a, ha, h⟩
    split_ifs at h with hs
    simp only [Option.some.injEq, Prod.mk.injEq] at h
    obtain ⟨⟨s', k'⟩, v'⟩ := a
    simp only at hs h
    obtain ⟨rfl, rfl⟩ := h
    subst hs
    exact ha
  · exact fun h => ⟨_, h, by simp⟩

/-- A swept value is an override of its flag. -/
theorem swept_mem {rc : RunConfig} {saveDir folder : String} {kw : List Arg} {s : Section} {k : Key} {v : Val}
    (h : ((s, k), v) ∈ kw) (hr : (s, k) ≠ (.experiment, .save_root)) :
    (k, v) ∈ argsOf s (jobArgs rc saveDir folder kw) := by
  rw [mem_argsOf]
  unfold jobArgs
  refine List.mem_map.2 ⟨((s, k), v), List.mem_append.2 (Or.inr h), ?_⟩
  split
  · rename_i h'
    simp only [Prod.mk.injEq] at h'
    exact absurd (Prod.ext h'.1.1 h'.1.2) hr
  · rfl

/-- What a started job was made of. -/
theorem launch_some {R : Repo} {rc : RunConfig} {saveDir folder : String} {kw : List Arg} {c : Cfg Key Val}
    (h : launch R rc saveDir folder kw = some c) :
    ∃ mf sf ef m s e, R.model rc.model = some mf ∧
      R.sampler (jobSampler rc (jobArgs rc saveDir folder kw)) = some sf ∧ rc.experimentFile R = some ef ∧
      mf.overrides (argsOf .model (jobArgs rc saveDir folder kw)) = some m ∧
      sf.overrides (argsOf .sampler (jobArgs rc saveDir folder kw)) = some s ∧
      (ef .experiment).overrides (argsOf .experiment (jobArgs rc saveDir folder kw)) = some e ∧
      mainConfig launchKeys Val.truthy R.graph R.coDefault R.common
        (fun t => if t = .experiment then e else ef t) s m = some c := by
  simp only [launch, Option.bind_eq_bind, Option.bind_eq_some_iff] at h
  obtain ⟨mf, h1, sf, h2, ef, h3, m, h4, s, h5, e, h6, h7⟩ := h
  exact ⟨mf, sf, ef, m, s, e, h1, h2, h3, h4, h5, h6, h7⟩

/-- **C117 (when a job starts).** A job starts exactly if its three files exist, every override names a key of its file
with a fitting type, and the configurations can be merged (always, for models without graphs and language models:
`mainConfig_plain`). -/
theorem launch_starts_iff (R : Repo) (rc : RunConfig) (saveDir folder : String) {kw : List Arg}
    (hnd : (kw.map Prod.fst).Nodup) :
    (launch R rc saveDir folder kw).isSome ↔
      ∃ mf sf ef, R.model rc.model = some mf ∧
        R.sampler (jobSampler rc (jobArgs rc saveDir folder kw)) = some sf ∧ rc.experimentFile R = some ef ∧
        Accepts mf (argsOf .model (jobArgs rc saveDir folder kw)) ∧
        Accepts sf (argsOf .sampler (jobArgs rc saveDir folder kw)) ∧
        Accepts (ef .experiment) (argsOf .experiment (jobArgs rc saveDir folder kw)) ∧
        (mainConfig launchKeys Val.truthy R.graph R.coDefault R.common
          (fun t => if t = .experiment
            then overridden (ef .experiment) (argsOf .experiment (jobArgs rc saveDir folder kw)) else ef t)
          (overridden sf (argsOf .sampler (jobArgs rc saveDir folder kw)))
          (overridden mf (argsOf .model (jobArgs rc saveDir folder kw)))).isSome := by
  have hn := jobArgs_nodup rc saveDir folder hnd
  constructor
  · intro h
    obtain ⟨c, hc⟩ := Option.isSome_iff_exists.1 h
    obtain ⟨mf, sf, ef, m, s, e, h1, h2, h3, h4, h5, h6, h7⟩ := launch_some hc
    have a1 := (overrides_spec mf _ (argsOf_nodup .model hn)).1.1 (by rw [h4]; rfl)
    have a2 := (overrides_spec sf _ (argsOf_nodup .sampler hn)).1.1 (by rw [h5]; rfl)
    have a3 := (overrides_spec (ef .experiment) _ (argsOf_nodup .experiment hn)).1.1 (by rw [h6]; rfl)
    refine ⟨mf, sf, ef, h1, h2, h3, a1, a2, a3, ?_⟩
    rw [overrides_some _ (argsOf_nodup .model hn) _ a1] at h4
    rw [overrides_some _ (argsOf_nodup .sampler hn) _ a2] at h5
    rw [overrides_some _ (argsOf_nodup .experiment hn) _ a3] at h6
    rw [Option.some.inj h4, Option.some.inj h5, Option.some.inj h6, h7]
    rfl
  · rintro ⟨mf, sf, ef, h1, h2, h3, a1, a2, a3, h7⟩
    obtain ⟨c, hc⟩ := Option.isSome_iff_exists.1 h7
    rw [Option.isSome_iff_exists]
    refine ⟨c, ?_⟩
    simp only [launch, h1, h2, h3, Option.bind_eq_bind, Option.bind_some,
      overrides_some _ (argsOf_nodup .model hn) _ a1, overrides_some _ (argsOf_nodup .sampler hn) _ a2,
      overrides_some _ (argsOf_nodup .experiment hn) _ a3]
    exact hc

/-- The section of the file that a flag of the job names. -/
def Spec.fileSec (R : Repo) (rc : RunConfig) (args : List Arg) : Section → Option (Sec Key Val)
  | .model => R.model rc.model
  | .sampler => R.sampler (jobSampler rc args)
  | .experiment => (rc.experimentFile R).map fun ef => ef .experiment

/-- The swept value `v` of `s.k` is in the configuration `c` of the job, read with the type of the value in the file. -/
def Spec.Arrives (R : Repo) (rc : RunConfig) (args : List Arg) (c : Cfg Key Val) (s : Section) (k : Key) (v : Val) :
    Prop :=
  ∃ file old r, fileSec R rc args s = some file ∧ file k = some old ∧ c s k = some r ∧ Written old v r

/-- The key is in no section `model` of the files. -/
def Absent (R : Repo) (rc : RunConfig) (k : Key) : Prop :=
  (∀ mf, R.model rc.model = some mf → mf k = none) ∧
    (∀ ef, rc.experimentFile R = some ef → ef .model k = none) ∧ R.common .model k = none

theorem overrides_absent {file s : Sec Key Val} {as : List (Key × Val)} (hnd : (as.map Prod.fst).Nodup)
    (h : file.overrides as = some s) {k : Key} (hk : file k = none) : s k = none := by
  have hacc := (overrides_spec file as hnd).1.1 (by rw [h]; rfl)
  have : k ∉ as.map Prod.fst := by
    intro hm
    obtain ⟨a, ha, rfl⟩ := List.mem_map.1 hm
    obtain ⟨o, ho, -⟩ := hacc a ha
    rw [hk] at ho
    exact absurd ho (by simp)
  rw [((overrides_spec file as hnd).2 s h).2 k this, hk]

theorem swept_value {rc : RunConfig} {saveDir folder : String} {kw : List Arg} (hnd : (kw.map Prod.fst).Nodup)
    {s : Section} {k : Key} {v : Val} (hkv : ((s, k), v) ∈ kw) (hr : (s, k) ≠ (.experiment, .save_root))
    {file out : Sec Key Val} (ho : file.overrides (argsOf s (jobArgs rc saveDir folder kw)) = some out) :
    ∃ old r, file k = some old ∧ out k = some r ∧ Written old v r := by
  have hmem := swept_mem (rc := rc) (saveDir := saveDir) (folder := folder) hkv hr
  have hsp := overrides_spec file _ (argsOf_nodup s (jobArgs_nodup rc saveDir folder hnd))
  obtain ⟨old, hold, -⟩ := hsp.1.1 (by rw [ho]; rfl) _ hmem
  obtain ⟨r, hr1, hr2⟩ := (hsp.2 out ho).1 k v old hmem hold
  exact ⟨old, r, hold, hr1, hr2⟩

/-- **C117 (plain models).** For a model without graph and language model, every swept value reaches the
configuration of the job, read with the type of the value in the file. -/
theorem swept_arrives_plain {R : Repo} {rc : RunConfig} {saveDir folder : String} {kw : List Arg} {c : Cfg Key Val}
    (h : launch R rc saveDir folder kw = some c) (hnd : (kw.map Prod.fst).Nodup)
    (hg : Absent R rc .graph_type) (hb : Absent R rc .bert_model)
    {s : Section} {k : Key} {v : Val} (hkv : ((s, k), v) ∈ kw) (hr : (s, k) ≠ (.experiment, .save_root)) :
    Arrives R rc (jobArgs rc saveDir folder kw) c s k v := by
  have hn := jobArgs_nodup rc saveDir folder hnd
  obtain ⟨mf, sf, ef, m, sc, e, h1, h2, h3, h4, h5, h6, h7⟩ := launch_some h
  obtain ⟨c', hc', hk⟩ := mainConfig_plain launchKeys Val.truthy R.graph R.coDefault R.common
    (fun t => if t = .experiment then e else ef t) sc m
    (overrides_absent (argsOf_nodup .model hn) h4 (hg.1 mf h1))
    (overrides_absent (argsOf_nodup .model hn) h4 (hb.1 mf h1))
    (by simpa [launchKeys] using hg.2.1 ef h3) (by simpa [launchKeys] using hb.2.1 ef h3) hg.2.2 hb.2.2
  obtain rfl : c' = c := Option.some.inj (hc'.symm.trans h7)
  obtain ⟨k1, k2, k3⟩ := hk k
  cases s with
  | model =>
    obtain ⟨old, r, hf, ho, hw⟩ := swept_value hnd hkv hr h4
    exact ⟨mf, old, r, h1, hf, by rw [k1, firstWith_three, ho]; rfl, hw⟩
  | sampler =>
    obtain ⟨old, r, hf, ho, hw⟩ := swept_value hnd hkv hr h5
    exact ⟨sf, old, r, h2, hf, by rw [k2, firstWith_three, ho]; rfl, hw⟩
  | experiment =>
    obtain ⟨old, r, hf, ho, hw⟩ := swept_value hnd hkv hr h6
    exact ⟨_, old, r, by simp [fileSec, h3], hf, by rw [k3, firstWith_two]; simp [ho], hw⟩

theorem mainConfig_graph_some {K V : Type} [DecidableEq K] {ks : ConfigKeys K} {truthy : V → Bool}
    {graphCfg : V → V → V → Option (Sec K V)} {coDefault : Sec K V} {common exp : Cfg K V}
    {samplerCfg modelCfg : Sec K V} {gt : V} {c : Cfg K V}
    (h : mainConfig ks truthy graphCfg coDefault common exp samplerCfg modelCfg = some c)
    (hg : modelCfg ks.graphType = some gt) (ht : truthy gt = true) :
    ∃ nm cs g, Spec.firstWith [modelCfg, common .model] ks.name = some nm ∧
      Spec.firstWith [modelCfg, common .model] ks.cfgStr = some cs ∧ graphCfg nm gt cs = some g := by
  unfold mainConfig at h
  simp only [hg, Option.isNone_some, Bool.false_and, Bool.false_eq_true, if_false] at h
  rw [if_pos (by simp [getTrue, Cfg.updateSec, Sec.update, hg, ht])] at h
  simp only [Option.bind_eq_bind, Option.bind_eq_some_iff] at h
  obtain ⟨nm, h1, gt', h2, cs, h3, g, h4, -⟩ := h
  have e : ∀ k, (common.updateSec .sampler samplerCfg).updateSec .model modelCfg .model k
      = (modelCfg k).or (common .model k) := by
    intro k; simp [Cfg.updateSec, Sec.update]
  rw [e] at h1 h2 h3
  rw [hg] at h2
  obtain rfl : gt = gt' := by simpa using h2
  exact ⟨nm, cs, g, by rw [firstWith_two, h1], by rw [firstWith_two, h3], h4⟩

/-- **C117 (graph models).** Every swept value reaches the configuration of the job, except keys of the model that the
graph configuration sets, and `num_models` of the experiment, which becomes that of the model. -/
theorem swept_arrives_graph {R : Repo} {rc : RunConfig} {saveDir folder : String} {kw : List Arg} {c : Cfg Key Val}
    (h : launch R rc saveDir folder kw = some c) (hnd : (kw.map Prod.fst).Nodup) {g : String}
    (hg : rc.graphType = some g) (hg0 : g ≠ "") (hgs : (Section.model, Key.graph_type) ∉ kw.map Prod.fst)
    (hb : Absent R rc .bert_model) (hbg : ∀ nm gt cs gc, R.graph nm gt cs = some gc → gc .bert_model = none)
    (hexp : ∀ ef, rc.experimentFile R = some ef → ∀ t, t ≠ .experiment → ∀ k, ef t k = none) :
    c .experiment .num_models = c .model .num_models ∧
    ∃ nm cs gc, R.graph nm (.str g) cs = some gc ∧ c .model .name = (gc .name).or (some nm) ∧
      c .model .cfg_str = (gc .cfg_str).or (some cs) ∧ (∀ k r, gc k = some r → c .model k = some r) ∧
      ∀ s k v, ((s, k), v) ∈ kw → (s, k) ≠ (.experiment, .save_root) → (s, k) ≠ (.experiment, .num_models) →
        (s = .model → gc k = none) → Arrives R rc (jobArgs rc saveDir folder kw) c s k v := by
  have hn := jobArgs_nodup rc saveDir folder hnd
  obtain ⟨mf, sf, ef, m, sc, e, h1, h2, h3, h4, h5, h6, h7⟩ := launch_some h
  have hgq : rc.graph? = some g := by simp [RunConfig.graph?, hg, hg0]
  have hmg : m .graph_type = some (.str g) := by
    have hmem : (Key.graph_type, Val.str g) ∈ argsOf .model (jobArgs rc saveDir folder kw) := by
      rw [mem_argsOf]
      unfold jobArgs
      refine List.mem_map.2 ⟨((.model, .graph_type), .str g), List.mem_append.2 (Or.inl ?_), rfl⟩
      refine List.mem_filter.2 ⟨?_, by simpa using hgs⟩
      simp [RunConfig.baseArgs, hgq]
    have hsp := overrides_spec mf _ (argsOf_nodup .model hn)
    obtain ⟨old, hold, hf⟩ := hsp.1.1 (by rw [h4]; rfl) _ hmem
    obtain ⟨r, hr1, hr2⟩ := (hsp.2 m h4).1 _ _ old hmem hold
    cases old <;> simp_all [Fits, Written]
  have ht : Val.truthy (.str g) = true := by simp [Val.truthy, hg0]
  obtain ⟨nm, cs, gc, e1, e2, e3⟩ := mainConfig_graph_some h7 hmg ht
  have hex : ∀ t, t ≠ Section.experiment → ∀ k, (if t = .experiment then e else ef t) k = none := by
    intro t ht' k
    rw [if_neg ht']
    exact hexp ef h3 t ht' k
  have hmb : m .bert_model = none := overrides_absent (argsOf_nodup .model hn) h4 (hb.1 mf h1)
  have hmain := mainConfig_graph launchKeys Val.truthy R.graph R.coDefault R.common
    (fun t => if t = .experiment then e else ef t) sc m gc nm (.str g) cs hmg ht e1 e2 e3
    (by rw [firstWith_four]; simp [hexp ef h3, launchKeys, hbg _ _ _ _ e3, hmb, hb.2.2])
  obtain ⟨m1, m2⟩ := hmain
  cases hnm : Spec.firstWith [(if Section.model = .experiment then e else ef .model), gc, m, R.common .model]
      launchKeys.numModels with
  | none =>
    rw [m1 hnm] at h7
    exact absurd h7 (by simp)
  | some n =>
    obtain ⟨c', hc', hk⟩ := m2 n hnm
    obtain rfl : c' = c := Option.some.inj (hc'.symm.trans h7)
    have hmod : ∀ k, c' .model k = (gc k).or ((m k).or (R.common .model k)) := by
      intro k
      rw [(hk k).1, firstWith_four]
      simp [hexp ef h3]
    refine ⟨?_, nm, cs, gc, e3, ?_, ?_, ?_, ?_⟩
    · rw [(hk .num_models).2.2, if_pos rfl, (hk .num_models).1]
      exact hnm.symm
    · rw [hmod]
      rw [firstWith_two] at e1
      rw [← e1]; rfl
    · rw [hmod]
      rw [firstWith_two] at e2
      rw [← e2]; rfl
    · intro k r hr
      rw [hmod, hr]; rfl
    · intro s k v hkv hr hnum hgk
      obtain ⟨k1, k2, k3⟩ := hk k
      cases s with
      | model =>
        obtain ⟨old, r, hf, ho, hw⟩ := swept_value hnd hkv hr h4
        exact ⟨mf, old, r, h1, hf, by rw [hmod, hgk rfl, ho]; rfl, hw⟩
      | sampler =>
        obtain ⟨old, r, hf, ho, hw⟩ := swept_value hnd hkv hr h5
        exact ⟨sf, old, r, h2, hf, by rw [k2, firstWith_three, ho]; simp [hexp ef h3], hw⟩
      | experiment =>
        obtain ⟨old, r, hf, ho, hw⟩ := swept_value hnd hkv hr h6
        refine ⟨_, old, r, by simp [fileSec, h3], hf, ?_, hw⟩
        have : k ≠ Key.num_models := fun e => hnum (by rw [e])
        rw [k3, firstWith_three, if_neg (by simpa [launchKeys] using this)]
        simp [ho]

/-- **C117 (language models).** Every swept value reaches the configuration of the job. -/
theorem swept_arrives_text {R : Repo} {rc : RunConfig} {saveDir folder : String} {kw : List Arg} {c : Cfg Key Val}
    (h : launch R rc saveDir folder kw = some c) (hnd : (kw.map Prod.fst).Nodup) (hg : Absent R rc .graph_type)
    (hb : ∀ mf, R.model rc.model = some mf → ∃ b, mf .bert_model = some (.str b) ∧ b ≠ "")
    (hbk : ∀ v, ((.model, .bert_model), v) ∈ kw → v.text ≠ "")
    (hexp : ∀ ef, rc.experimentFile R = some ef → ∀ t, t ≠ .experiment → ∀ k, ef t k = none)
    (hbase : rc.graph? = none)
    {s : Section} {k : Key} {v : Val} (hkv : ((s, k), v) ∈ kw) (hr : (s, k) ≠ (.experiment, .save_root)) :
    Arrives R rc (jobArgs rc saveDir folder kw) c s k v := by
  have hn := jobArgs_nodup rc saveDir folder hnd
  obtain ⟨mf, sf, ef, m, sc, e, h1, h2, h3, h4, h5, h6, h7⟩ := launch_some h
  obtain ⟨b, hmb, hb0⟩ := hb mf h1
  obtain ⟨b', hmb', ht⟩ : ∃ b', m .bert_model = some b' ∧ b'.truthy = true := by
    by_cases hm : (Section.model, Key.bert_model) ∈ kw.map Prod.fst
    · obtain ⟨⟨⟨s', k'⟩, w⟩, ha, he⟩ := List.mem_map.1 hm
      simp only [Prod.mk.injEq] at he
      obtain ⟨rfl, rfl⟩ := he
      obtain ⟨old, r, hf, ho, hw⟩ := swept_value hnd ha (by simp) h4
      rw [hmb] at hf
      obtain rfl := Option.some.inj hf
      have h0 := hbk w ha
      refine ⟨r, ho, ?_⟩
      cases w <;> simp_all [Written, Val.truthy, Val.text]
    · refine ⟨.str b, ?_, by simp [Val.truthy, hb0]⟩
      rw [((overrides_spec mf _ (argsOf_nodup .model hn)).2 m h4).2 _ ?_, hmb]
      intro hk
      obtain ⟨⟨k', w⟩, ha, he⟩ := List.mem_map.1 hk
      simp only at he
      subst he
      rw [mem_argsOf] at ha
      have := List.mem_map_of_mem (f := Prod.fst) ha
      rw [jobArgs_keys, List.mem_append] at this
      rcases this with h' | h'
      · obtain ⟨a, ha', hae⟩ := List.mem_map.1 h'
        have := (List.mem_filter.1 ha').1
        simp only [RunConfig.baseArgs, hbase, List.nil_append, List.mem_singleton] at this
        subst this
        simp at hae
      · exact hm h'
  obtain ⟨c', hc', hk⟩ := mainConfig_bert launchKeys Val.truthy R.graph R.coDefault R.common
    (fun t => if t = .experiment then e else ef t) sc m b'
    (by
      rw [firstWith_two]
      simp [launchKeys, overrides_absent (argsOf_nodup .model hn) h4 (hg.1 mf h1), hg.2.2]) hmb' ht
  obtain rfl : c' = c := Option.some.inj (hc'.symm.trans h7)
  obtain ⟨k1, k2, k3⟩ := hk k
  cases s with
  | model =>
    obtain ⟨old, r, hf, ho, hw⟩ := swept_value hnd hkv hr h4
    exact ⟨mf, old, r, h1, hf, by rw [k1, firstWith_three, ho]; simp [hexp ef h3], hw⟩
  | sampler =>
    obtain ⟨old, r, hf, ho, hw⟩ := swept_value hnd hkv hr h5
    exact ⟨sf, old, r, h2, hf, by rw [k2, firstWith_three, ho]; simp [hexp ef h3], hw⟩
  | experiment =>
    obtain ⟨old, r, hf, ho, hw⟩ := swept_value hnd hkv hr h6
    exact ⟨_, old, r, by simp [fileSec, h3], hf, by rw [k3, firstWith_two]; simp [ho], hw⟩

/-! ### The folder of the job -/

/-- The configurations agree except for `save_root`. -/
def Spec.AgreeOff (c c' : Cfg Key Val) : Prop :=
  ∀ s k, (s, k) ≠ (Section.experiment, Key.save_root) → c s k = c' s k

theorem mainConfig_agree (g : Val → Val → Val → Option (Sec Key Val)) (co : Sec Key Val) (cm : Cfg Key Val)
    {exp exp' : Cfg Key Val} (h : AgreeOff exp exp') (s m : Sec Key Val) :
    Option.Rel AgreeOff (mainConfig launchKeys Val.truthy g co cm exp s m)
      (mainConfig launchKeys Val.truthy g co cm exp' s m) := by
  have upd : ∀ {a b a' b' : Cfg Key Val}, AgreeOff a a' → AgreeOff b b' → AgreeOff (a.update b) (a'.update b') := by
    intro a b a' b' h1 h2 t k hk
    simp only [Cfg.update, Sec.update, h1 t k hk, h2 t k hk]
  have updS : ∀ {a a' : Cfg Key Val} (t : Section) (b : Sec Key Val), AgreeOff a a' →
      AgreeOff (a.updateSec t b) (a'.updateSec t b) := by
    intro a a' t b h1 t' k hk
    simp only [Cfg.updateSec]
    split_ifs
    · simp only [Sec.update, h1 t' k hk]
    · exact h1 t' k hk
  have setK : ∀ {a a' : Cfg Key Val} (t : Section) (k : Key) (v : Val), AgreeOff a a' →
      AgreeOff (a.setKey t k v) (a'.setKey t k v) := by
    intro a a' t k v h1 t' k' hk
    simp only [Cfg.setKey]
    split_ifs
    · rfl
    · exact h1 t' k' hk
  have modelEq : ∀ {a a' : Cfg Key Val}, AgreeOff a a' → a .model = a' .model := by
    intro a a' h1
    funext k
    exact h1 .model k (by simp)
  have refl : ∀ a : Cfg Key Val, AgreeOff a a := fun _ _ _ _ => rfl
  have fin : ∀ {a a' : Cfg Key Val}, AgreeOff a a' →
      Option.Rel AgreeOff (if getTrue Val.truthy (a .model) launchKeys.bertModel then some (a.update exp) else some a)
        (if getTrue Val.truthy (a' .model) launchKeys.bertModel then some (a'.update exp') else some a') := by
    intro a a' h1
    rw [modelEq h1]
    split_ifs
    · exact .some (upd h1 h)
    · exact .some h1
  unfold mainConfig
  extract_lets c0 c1 c2 jp d0 d1 d2 jp'
  have h0 : AgreeOff c0 d0 := by
    simp only [c0, d0]
    split_ifs
    · exact upd (refl _) h
    · exact refl _
  have h2 : AgreeOff c2 d2 := updS _ _ (updS _ _ h0)
  rw [modelEq h2]
  by_cases hg : getTrue Val.truthy (d2 .model) launchKeys.graphType = true
  · simp only [hg, if_true]
    cases hn : d2 .model launchKeys.name with
    | none => exact .none
    | some nm =>
    cases ht : d2 .model launchKeys.graphType with
    | none => simp only [Option.bind_eq_bind, Option.bind_some, Option.bind_none]; exact .none
    | some gt =>
    cases hc : d2 .model launchKeys.cfgStr with
    | none => simp only [Option.bind_eq_bind, Option.bind_some, Option.bind_none]; exact .none
    | some cs =>
    cases hgr : g nm gt cs with
    | none => simp only [hgr, Option.bind_eq_bind, Option.bind_some, Option.bind_none]; exact .none
    | some gc =>
      simp only [hgr, Option.bind_eq_bind, Option.bind_some]
      have h3 : AgreeOff (((c2.updateSec .model gc).updateSec .experiment co).update exp)
          (((d2.updateSec .model gc).updateSec .experiment co).update exp') :=
        upd (updS _ _ (updS _ _ h2)) h
      rw [modelEq h3]
      cases hm : (((d2.updateSec .model gc).updateSec .experiment co).update exp') .model launchKeys.numModels with
      | none => exact .none
      | some n =>
        simp only [Option.bind_some]
        exact fin (setK _ _ _ h3)
  · simp only [hg, Bool.false_eq_true, if_false]
    exact fin h2

/-- The arguments of a job whose sweep leaves `save_root` alone. -/
theorem jobArgs_eq (rc : RunConfig) (saveDir folder : String) {kw : List Arg}
    (hr : (Section.experiment, Key.save_root) ∉ kw.map Prod.fst) :
    jobArgs rc saveDir folder kw = (match rc.graph? with
      | some g => [((.model, .graph_type), .str g), ((.model, .data_root), .str "/gcs/xcloud-shared/hadai/data/sco")]
      | none => [] : List Arg).filter (fun a => a.1 ∉ kw.map Prod.fst) ++
        ((.experiment, .save_root), .str (saveDir ++ "/" ++ folder)) :: kw := by
  have hkw : ∀ (F : Arg → Arg), (∀ a, a.1 ≠ (Section.experiment, Key.save_root) → F a = a) → ∀ l : List Arg,
      (∀ a ∈ l, a.1 ≠ (Section.experiment, Key.save_root)) → l.map F = l := by
    intro F hF l hl
    conv_rhs => rw [← List.map_id l]
    exact List.map_congr_left fun a ha => hF a (hl a ha)
  unfold jobArgs RunConfig.baseArgs
  rw [List.filter_append, List.map_append, List.map_append, hkw _ _ kw, hkw]
  · have hf : List.filter (fun a => decide (a.1 ∉ kw.map Prod.fst))
        [(((Section.experiment, Key.save_root), Val.str saveDir) : Arg)] =
        [((Section.experiment, Key.save_root), Val.str saveDir)] := by
      rw [List.filter_cons_of_pos (by simpa using hr), List.filter_nil]
    rw [hf, List.map_singleton, List.append_assoc]
    rfl
  · intro a ha
    split <;> simp_all
  · intro a ha
    have := (List.mem_filter.1 ha).1
    split at this
    · rcases List.mem_pair.1 this with h | h <;> simp [h]
    · simp at this
  · intro a ha he
    exact hr (List.mem_map.2 ⟨a, ha, he⟩)
  · intro a ha
    split <;> simp_all

/-- Sections that agree except at one key. -/
def SecAgree (k₀ : Key) (s s' : Sec Key Val) : Prop :=
  (∀ k, k ≠ k₀ → s k = s' k)

theorem overrides_agree {k₀ : Key} (l : List (Key × Val)) (hl : k₀ ∉ l.map Prod.fst) {s s' : Sec Key Val}
    (h : SecAgree k₀ s s') : Option.Rel (SecAgree k₀) (s.overrides l) (s'.overrides l) := by
  induction l generalizing s s' with
  | nil => exact .some h
  | cons a l ih =>
    simp only [List.map_cons, List.mem_cons, not_or] at hl
    unfold Sec.overrides
    rw [List.foldlM_cons, List.foldlM_cons]
    unfold Sec.override
    rw [h a.1 (Ne.symm hl.1)]
    cases s' a.1 with
    | none => exact .none
    | some old =>
      simp only [Option.bind_eq_bind, Option.bind_some]
      cases old.parseAs a.2 with
      | none => exact .none
      | some v =>
        refine ih hl.2 fun k hk => ?_
        by_cases hka : k = a.1 <;> simp [hka, h k hk]

/-- The folder does not decide which sampler file is used. -/
theorem jobSampler_folder (rc : RunConfig) (d f d' f' : String) {kw : List Arg}
    (hr : (Section.experiment, Key.save_root) ∉ kw.map Prod.fst) :
    jobSampler rc (jobArgs rc d f kw) = jobSampler rc (jobArgs rc d' f' kw) := by
  have : ∀ l : List Arg, ∀ v : Val, (l ++ ((Section.experiment, Key.save_root), v) :: kw).lookup
      (Section.sampler, Key.name) = (l ++ kw).lookup (Section.sampler, Key.name) := by
    intro l v
    rw [List.lookup_append, List.lookup_append, List.lookup_cons]
    rfl
  unfold jobSampler
  rw [jobArgs_eq _ _ _ hr, jobArgs_eq _ _ _ hr, this, this]

/-- **C117.** The folder in which a job writes decides neither whether it starts nor anything else in its
configuration. -/
theorem launch_agree (R : Repo) (rc : RunConfig) (d f d' f' : String) {kw : List Arg}
    (hr : (Section.experiment, Key.save_root) ∉ kw.map Prod.fst) :
    Option.Rel AgreeOff (launch R rc d f kw) (launch R rc d' f' kw) := by
  have ha : ∀ t, t ≠ Section.experiment → argsOf t (jobArgs rc d f kw) = argsOf t (jobArgs rc d' f' kw) := by
    intro t ht
    rw [jobArgs_eq _ _ _ hr, jobArgs_eq _ _ _ hr]
    simp [argsOf, List.filterMap_append, Ne.symm ht]
  have he : ∀ d f, argsOf .experiment (jobArgs rc d f kw) =
      (Key.save_root, Val.str (d ++ "/" ++ f)) :: argsOf .experiment kw := by
    intro d f
    rw [jobArgs_eq _ _ _ hr, argsOf, List.filterMap_append, List.filterMap_cons]
    simp only [if_true]
    rw [List.filterMap_eq_nil_iff.2]
    · rfl
    · intro a ha
      have := (List.mem_filter.1 ha).1
      split at this
      · rcases List.mem_pair.1 this with h | h <;> simp [h]
      · simp at this
  have hs := jobSampler_folder rc d f d' f' hr
  unfold launch
  simp only [Option.bind_eq_bind]
  rw [hs, ha .model (by simp), ha .sampler (by simp), he, he]
  cases R.model rc.model with
  | none => exact .none
  | some mf =>
  cases R.sampler (jobSampler rc (jobArgs rc d' f' kw)) with
  | none => exact .none
  | some sf =>
  cases rc.experimentFile R with
  | none => exact .none
  | some ef =>
  simp only [Option.bind_some]
  cases mf.overrides (argsOf .model (jobArgs rc d' f' kw)) with
  | none => exact .none
  | some m =>
  cases sf.overrides (argsOf .sampler (jobArgs rc d' f' kw)) with
  | none => exact .none
  | some s =>
  simp only [Option.bind_some]
  have hne : Key.save_root ∉ (argsOf .experiment kw).map Prod.fst := by
    intro h
    obtain ⟨⟨k, v⟩, hk, rfl⟩ := List.mem_map.1 h
    exact hr (List.mem_map.2 ⟨_, (mem_argsOf ..).1 hk, rfl⟩)
  have hrel : Option.Rel (SecAgree .save_root)
      ((ef .experiment).overrides ((Key.save_root, Val.str (d ++ "/" ++ f)) :: argsOf .experiment kw))
      ((ef .experiment).overrides ((Key.save_root, Val.str (d' ++ "/" ++ f')) :: argsOf .experiment kw)) := by
    unfold Sec.overrides
    rw [List.foldlM_cons, List.foldlM_cons]
    unfold Sec.override
    cases ef .experiment .save_root with
    | none => exact .none
    | some old =>
      simp only [Option.bind_eq_bind, Option.bind_some]
      cases old with
      | str o =>
        simp only [Val.parseAs, Option.bind_some]
        exact overrides_agree _ hne fun k hk => by simp [hk]
      | _ => exact .none
  revert hrel
  generalize (ef .experiment).overrides ((Key.save_root, Val.str (d ++ "/" ++ f)) :: argsOf .experiment kw) = x
  generalize (ef .experiment).overrides ((Key.save_root, Val.str (d' ++ "/" ++ f')) :: argsOf .experiment kw) = y
  intro hrel
  cases hrel with
  | none => exact .none
  | some hxy =>
    simp only [Option.bind_some]
    refine mainConfig_agree _ _ _ (fun t k hk => ?_) _ _
    by_cases ht : t = .experiment
    · subst ht
      simpa using hxy k (by simpa using hk)
    · simp [ht]

end Discs
