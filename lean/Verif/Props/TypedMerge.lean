import Verif.Props.Shipped
import Verif.Model.TypedMerge

/-!
# Type checks in the merge of the configurations (C84, C117)

`ml_collections` refuses an assignment that would change the type of a field.  Whenever the merge with type checks goes
through, it gives the same values as the merge of `Model/MainConfig.lean`, up to integers turned into floats; on the jobs
of the shipped sweeps the two are the same, so everything proved of these jobs holds with type checks.
-/

namespace Discs

open Spec

/-! ### Specification -/

/-- The number a value stands for, as Python compares it. -/
def Spec.num : Val → Option ℚ
  | .int z => some z
  | .float q => some q
  | .bool b => some (if b then 1 else 0)
  | _ => none

/-- The same value, or a float and the number it was made of. -/
def Spec.SameNum (v w : Val) : Prop := v = w ∨ ∃ q, v = .float q ∧ num w = some q

/-- Configurations with the same values up to conversion to floats. -/
def Spec.SameCfg (c c' : Cfg Key Val) : Prop := ∀ s k, Option.Rel SameNum (c s k) (c' s k)

/-! ### Every key is listed -/

theorem Key.mem_all (k : Key) : k ∈ Key.all := by
  cases k <;> decide

/-! ### Conversions keep the number -/

theorem sameNum_refl (v : Val) : SameNum v v := Or.inl rfl

theorem Spec.SameNum.trans {u v w : Val} (h : SameNum u v) (h' : SameNum v w) : SameNum u w := by
  rcases h with rfl | ⟨q, rfl, hq⟩
  · exact h'
  · rcases h' with rfl | ⟨q', rfl, hq'⟩
    · exact Or.inr ⟨q, rfl, hq⟩
    · simp only [Spec.num, Option.some.injEq] at hq
      subst hq
      exact Or.inr ⟨_, rfl, hq'⟩

theorem cast_same {o v r : Val} (h : o.cast v = some r) : SameNum r v := by
  cases o <;> cases v <;> simp only [Val.cast, Option.some.injEq, reduceCtorEq] at h <;> subst h <;>
    first
      | exact Or.inl rfl
      | exact Or.inr ⟨_, rfl, by simp [Spec.num]⟩

theorem Spec.SameNum.truthy {v w : Val} (h : SameNum v w) : v.truthy = w.truthy := by
  rcases h with rfl | ⟨q, rfl, hq⟩
  · rfl
  · cases w <;> simp only [Spec.num, Option.some.injEq, reduceCtorEq] at hq <;> subst hq <;> simp [Val.truthy]

theorem Spec.SameNum.str {s : String} {w : Val} (h : SameNum (.str s) w) : w = .str s := by
  rcases h with rfl | ⟨q, hq, -⟩
  · rfl
  · simp at hq

theorem fieldUpdate_same {o o' n n' r : Option Val} (h : fieldUpdate o n = some r) (ho : Option.Rel SameNum o o')
    (hn : Option.Rel SameNum n n') : Option.Rel SameNum r (n'.or o') := by
  cases hn with
  | none =>
    cases o <;> simp only [fieldUpdate, Option.some.injEq] at h <;> subst h <;> simpa using ho
  | @some a b hab =>
    cases ho with
    | none =>
      simp only [fieldUpdate, Option.some.injEq] at h
      subst h
      exact .some hab
    | @some u v huv =>
      simp only [fieldUpdate, Option.map_eq_some_iff] at h
      obtain ⟨w, hw, rfl⟩ := h
      exact .some ((cast_same hw).trans hab)

theorem relSame_refl (o : Option Val) : Option.Rel SameNum o o := by
  cases o
  · exact .none
  · exact .some (sameNum_refl _)

theorem updateT_apply {a b r : Sec Key Val} (h : a.updateT b = some r) (k : Key) :
    fieldUpdate (a k) (b k) = some (r k) := by
  unfold Sec.updateT at h
  split_ifs at h with hc
  simp only [Option.some.injEq] at h
  subst h
  have := List.all_eq_true.1 hc k (Key.mem_all k)
  obtain ⟨x, hx⟩ := Option.isSome_iff_exists.1 this
  simp [hx]

theorem updateSecT_same {a a' c : Cfg Key Val} {s : Section} {b : Sec Key Val} (h : a.updateSecT s b = some c)
    (ha : SameCfg a a') : SameCfg c (a'.updateSec s b) := by
  simp only [Cfg.updateSecT, Option.map_eq_some_iff] at h
  obtain ⟨sec, hs, rfl⟩ := h
  intro t k
  by_cases ht : t = s
  · subst ht
    simpa [Cfg.updateSec, Sec.update] using fieldUpdate_same (updateT_apply hs k) (ha t k) (relSame_refl _)
  · simpa [Cfg.updateSec, ht] using ha t k

theorem update_eq (a b : Cfg Key Val) : a.update b =
    ((a.updateSec .model (b .model)).updateSec .sampler (b .sampler)).updateSec .experiment (b .experiment) := by
  funext s
  cases s <;> simp [Cfg.update, Cfg.updateSec]

theorem updateT_same {a a' c b : Cfg Key Val} (h : a.updateT b = some c) (ha : SameCfg a a') :
    SameCfg c (a'.update b) := by
  simp only [Cfg.updateT, Option.bind_eq_bind, Option.bind_eq_some_iff] at h
  obtain ⟨c1, h1, c2, h2, h3⟩ := h
  rw [update_eq]
  exact updateSecT_same h3 (updateSecT_same h2 (updateSecT_same h1 ha))

theorem setKeyT_same {a a' c : Cfg Key Val} {s : Section} {k : Key} {v v' : Val} (h : a.setKeyT s k v = some c)
    (ha : SameCfg a a') (hv : SameNum v v') : SameCfg c (a'.setKey s k v') := by
  simp only [Cfg.setKeyT, Option.map_eq_some_iff] at h
  obtain ⟨r, hr, rfl⟩ := h
  intro t k'
  by_cases ht : t = s ∧ k' = k
  · simpa [Cfg.setKey, ht] using fieldUpdate_same hr (ha s k) (.some hv)
  · simpa [Cfg.setKey, ht] using ha t k'

theorem getTrue_same {s s' : Sec Key Val} (h : ∀ k, Option.Rel SameNum (s k) (s' k)) (k : Key) :
    getTrue Val.truthy s k = getTrue Val.truthy s' k := by
  unfold getTrue
  have := h k
  revert this
  cases s k <;> cases s' k <;> intro h <;> cases h
  · rfl
  · rename_i h
    simpa using h.truthy

/-- The merge without type checks, in three stages. -/
theorem mainConfig_stages {K V : Type} [DecidableEq K] (ks : ConfigKeys K) (truthy : V → Bool)
    {graphCfg : V → V → V → Option (Sec K V)} {coDefault : Sec K V} {common exp : Cfg K V}
    {samplerCfg modelCfg : Sec K V} {d1 d3 d4 : Cfg K V}
    (hd1 : d1 = if (modelCfg ks.graphType).isNone && (modelCfg ks.bertModel).isNone then common.update exp else common)
    (hd3 : d3 = (d1.updateSec .sampler samplerCfg).updateSec .model modelCfg)
    (hd4 : (if getTrue truthy (d3 .model) ks.graphType then (do
      let nm ← d3 .model ks.name
      let gt ← d3 .model ks.graphType
      let cs ← d3 .model ks.cfgStr
      let g ← graphCfg nm gt cs
      let c := d3.updateSec .model g
      let c := c.updateSec .experiment coDefault
      let c := c.update exp
      let n ← c .model ks.numModels
      some (c.setKey .experiment ks.numModels n)) else some d3) = some d4) :
    mainConfig ks truthy graphCfg coDefault common exp samplerCfg modelCfg =
      if getTrue truthy (d4 .model) ks.bertModel then some (d4.update exp) else some d4 := by
  simp only [mainConfig]
  rw [← hd1, ← hd3]
  by_cases hg : getTrue truthy (d3 .model) ks.graphType = true
  · rw [if_pos hg] at hd4 ⊢
    simp only [Option.bind_eq_bind, Option.bind_eq_some_iff, Option.some.injEq] at hd4
    obtain ⟨nm, hnm, gt, hgt, cs, hcs, g, hgr, n, hn, hd4⟩ := hd4
    simp [hnm, hgt, hcs, hgr, hn, hd4]
  · rw [if_neg hg] at hd4 ⊢
    simp only [Option.some.injEq] at hd4
    rw [hd4]
    rfl

/-- When the merge of a graph model raises without type checks. -/
theorem mainConfig_none {K V : Type} [DecidableEq K] (ks : ConfigKeys K) (truthy : V → Bool)
    {graphCfg : V → V → V → Option (Sec K V)} {coDefault : Sec K V} {common exp : Cfg K V}
    {samplerCfg modelCfg : Sec K V} {d1 d3 : Cfg K V}
    (hd1 : d1 = if (modelCfg ks.graphType).isNone && (modelCfg ks.bertModel).isNone then common.update exp else common)
    (hd3 : d3 = (d1.updateSec .sampler samplerCfg).updateSec .model modelCfg)
    (hg : getTrue truthy (d3 .model) ks.graphType = true)
    (h : d3 .model ks.name = none ∨ d3 .model ks.graphType = none ∨ d3 .model ks.cfgStr = none ∨
      (∃ nm gt cs, d3 .model ks.name = some nm ∧ d3 .model ks.graphType = some gt ∧ d3 .model ks.cfgStr = some cs ∧
        graphCfg nm gt cs = none) ∨
      ∃ nm gt cs g, d3 .model ks.name = some nm ∧ d3 .model ks.graphType = some gt ∧ d3 .model ks.cfgStr = some cs ∧
        graphCfg nm gt cs = some g ∧
        (((d3.updateSec .model g).updateSec .experiment coDefault).update exp) .model ks.numModels = none) :
    mainConfig ks truthy graphCfg coDefault common exp samplerCfg modelCfg = none := by
  simp only [mainConfig]
  rw [← hd1, ← hd3, if_pos hg]
  simp only [Option.bind_eq_bind]
  rcases h with h | h | h | ⟨nm, gt, cs, h1, h2, h3, h4⟩ | ⟨nm, gt, cs, g, h1, h2, h3, h4, h5⟩
  · simp [h]
  · cases d3 .model ks.name <;> simp [h]
  · cases d3 .model ks.name <;> cases d3 .model ks.graphType <;> simp [h]
  · simp [h1, h2, h3, h4]
  · simp [h1, h2, h3, h4, h5]

/-- **C84 (type checks).** If the merge with the type checks of `ml_collections` goes through, so does the merge without
them, and the values are the same up to integers and truth values that were turned into floats because the field was a
float.  `hG`: file names of graph configurations are made of texts. -/
theorem mainConfigT_same {graphCfg : Val → Val → Val → Option (Sec Key Val)} {coDefault : Sec Key Val}
    {common exp : Cfg Key Val} {samplerCfg modelCfg : Sec Key Val} {c : Cfg Key Val}
    (hG : ∀ a b d g, graphCfg a b d = some g → ∃ x y z, a = .str x ∧ b = .str y ∧ d = .str z)
    (h : mainConfigT graphCfg coDefault common exp samplerCfg modelCfg = some c) :
    ∃ c', mainConfig launchKeys Val.truthy graphCfg coDefault common exp samplerCfg modelCfg = some c' ∧
      SameCfg c c' := by
  simp only [mainConfigT, Option.bind_eq_bind, Option.bind_eq_some_iff] at h
  obtain ⟨c1, h1, c2, h2, c3, h3, c4, h4, h5⟩ := h
  obtain ⟨d1, hd1⟩ : ∃ d1, d1 = (if (modelCfg .graph_type).isNone && (modelCfg .bert_model).isNone
    then common.update exp else common) := ⟨_, rfl⟩
  have r1 : SameCfg c1 d1 := by
    rw [hd1]
    unfold mergeStartT at h1
    split_ifs at h1 ⊢ with hi
    · exact updateT_same h1 fun s k => relSame_refl _
    · simp only [Option.some.injEq] at h1
      subst h1
      exact fun s k => relSame_refl _
  have r3 := updateSecT_same h3 (updateSecT_same h2 r1)
  obtain ⟨d3, hd3⟩ : ∃ d3, d3 = (d1.updateSec .sampler samplerCfg).updateSec .model modelCfg := ⟨_, rfl⟩
  rw [← hd3] at r3
  have e3 := getTrue_same (fun k => r3 .model k) .graph_type
  obtain ⟨d4, hd4, r4⟩ : ∃ d4, (if getTrue Val.truthy (d3 .model) .graph_type then (do
      let nm ← d3 .model .name
      let gt ← d3 .model .graph_type
      let cs ← d3 .model .cfg_str
      let g ← graphCfg nm gt cs
      let c := d3.updateSec .model g
      let c := c.updateSec .experiment coDefault
      let c := c.update exp
      let n ← c .model .num_models
      some (c.setKey .experiment .num_models n)) else some d3) = some d4 ∧ SameCfg c4 d4 := by
    rw [← e3]
    unfold mergeGraphT at h4
    split_ifs at h4 ⊢ with hg
    · simp only [Option.bind_eq_bind, Option.bind_eq_some_iff] at h4
      obtain ⟨nm, hnm, gt, hgt, cs, hcs, g, hgr, c5, h5, c6, h6, c7, h7, n, hn, h8⟩ := h4
      obtain ⟨x, y, z, rfl, rfl, rfl⟩ := hG _ _ _ _ hgr
      have str : ∀ k s, c3 .model k = some (.str s) → d3 .model k = some (.str s) := by
        intro k s hk
        have := r3 .model k
        rw [hk] at this
        revert this
        cases d3 .model k <;> intro h <;> cases h
        rename_i h
        rw [h.str]
      have r7 := updateT_same h7 (updateSecT_same h6 (updateSecT_same h5 r3))
      have hn' := r7 .model .num_models
      rw [hn] at hn'
      generalize hd7 : (((d3.updateSec .model g).updateSec .experiment coDefault).update exp) = d7 at r7 hn'
      cases hm : d7 .model .num_models with
      | none => rw [hm] at hn'; cases hn'
      | some n' =>
        rw [hm] at hn'
        cases hn' with
        | some hn' =>
          refine ⟨d7.setKey .experiment .num_models n', ?_, setKeyT_same h8 r7 hn'⟩
          simp [str _ _ hnm, str _ _ hgt, str _ _ hcs, hgr, hd7, hm]
    · simp only [Option.some.injEq] at h4
      subst h4
      exact ⟨d3, rfl, r3⟩
  have e4 := getTrue_same (fun k => r4 .model k) .bert_model
  have main : mainConfig launchKeys Val.truthy graphCfg coDefault common exp samplerCfg modelCfg =
      (if getTrue Val.truthy (d4 .model) .bert_model then some (d4.update exp) else some d4) := by
    exact mainConfig_stages launchKeys Val.truthy hd1 hd3 hd4
  rw [main, ← e4]
  unfold mergeBertT at h5
  split_ifs at h5 ⊢ with hb
  · exact ⟨_, rfl, updateT_same h5 r4⟩
  · simp only [Option.some.injEq] at h5
    subst h5
    exact ⟨_, rfl, r4⟩

/-- **C117 (type checks).** A job that starts with type checks starts without them, with the same values up to conversion
to floats. -/
theorem launchT_same {R : Repo} {rc : RunConfig} {saveDir folder : String} {kw : List Arg} {c : Cfg Key Val}
    (hG : ∀ a b d g, R.graph a b d = some g → ∃ x y z, a = .str x ∧ b = .str y ∧ d = .str z)
    (h : launchT R rc saveDir folder kw = some c) :
    ∃ c', launch R rc saveDir folder kw = some c' ∧ SameCfg c c' := by
  simp only [launchT, Option.bind_eq_bind, Option.bind_eq_some_iff] at h
  obtain ⟨mf, h1, sf, h2, ef, h3, m, h4, s, h5, e, h6, h7⟩ := h
  obtain ⟨c', hc', hs⟩ := mainConfigT_same hG h7
  refine ⟨c', ?_, hs⟩
  simp only [launch, h1, h2, h3, h4, h5, h6, Option.bind_eq_bind, Option.bind_some]
  exact hc'

/-! ### When an update raises -/

/-- The types of values. -/
inductive Spec.Kind
  | int | float | str | bool | tuple
  deriving DecidableEq

/-- The type of a value. -/
def Spec.kind : Val → Kind
  | .int _ => .int
  | .float _ => .float
  | .str _ => .str
  | .bool _ => .bool
  | .tuple _ => .tuple

/-- Python's `isinstance`, and the one conversion: what may be assigned to a field. -/
def Spec.Assignable (field value : Kind) : Prop :=
  value = field ∨ (field = .int ∧ value = .bool) ∨ (field = .float ∧ (value = .int ∨ value = .bool))

theorem cast_isSome (o v : Val) : (o.cast v).isSome ↔ Assignable (kind o) (kind v) := by
  cases o <;> cases v <;> simp [Val.cast, Spec.kind, Assignable]

/-- **C84 (type errors).** An update of a section raises exactly if it has a value, under a key of the section, that is
neither of the type of the old value nor an integer or truth value for a float nor a truth value for an integer. -/
theorem updateT_raises_iff (a b : Sec Key Val) :
    a.updateT b = none ↔ ∃ k o v, a k = some o ∧ b k = some v ∧ ¬ Assignable (kind o) (kind v) := by
  have key : ∀ k, (fieldUpdate (a k) (b k)).isSome = false ↔
      ∃ o v, a k = some o ∧ b k = some v ∧ ¬ Assignable (kind o) (kind v) := by
    intro k
    cases ha : a k with
    | none => cases hb : b k <;> simp [fieldUpdate]
    | some o =>
      cases hb : b k with
      | none => simp [fieldUpdate]
      | some v =>
        have := cast_isSome o v
        cases hc : o.cast v with
        | none =>
          rw [hc] at this
          simp only [Option.isSome_none, Bool.false_eq_true, false_iff] at this
          simp [fieldUpdate, hc, this]
        | some r =>
          rw [hc] at this
          simp only [Option.isSome_some, true_iff] at this
          simp [fieldUpdate, hc, this]
  unfold Sec.updateT
  constructor
  · intro h
    split_ifs at h with hc
    rw [List.all_eq_true] at hc
    push Not at hc
    obtain ⟨k, -, hk⟩ := hc
    exact ⟨k, (key k).1 (by simpa using hk)⟩
  · rintro ⟨k, hk⟩
    rw [if_neg]
    intro hc
    have := List.all_eq_true.1 hc k (Key.mem_all k)
    rw [(key k).2 hk] at this
    exact absurd this (by simp)

/-- **C84 (type errors).** A job whose experiment file has a value of a wrong type, compared with the common
configuration, does not start if its model has neither graphs nor a language model. -/
theorem mainConfigT_clash {graphCfg : Val → Val → Val → Option (Sec Key Val)} {coDefault : Sec Key Val}
    {common exp : Cfg Key Val} {samplerCfg modelCfg : Sec Key Val}
    (hg : modelCfg .graph_type = none) (hb : modelCfg .bert_model = none) {s : Section} {k : Key} {o v : Val}
    (ho : common s k = some o) (hv : exp s k = some v) (hk : ¬ Assignable (kind o) (kind v)) :
    mainConfigT graphCfg coDefault common exp samplerCfg modelCfg = none := by
  have hs : Sec.updateT (common s) (exp s) = none := (updateT_raises_iff _ _).2 ⟨k, o, v, ho, hv, hk⟩
  have h1 : mergeStartT common exp modelCfg = none := by
    simp only [mergeStartT, hg, hb, Option.isNone_none, Bool.and_self, if_true, Cfg.updateT, Option.bind_eq_bind]
    cases s with
    | model => simp [Cfg.updateSecT, hs]
    | sampler =>
      cases h1 : common.updateSecT .model (exp .model) with
      | none => rfl
      | some c1 =>
        have e : c1 .sampler = common .sampler := by
          simp only [Cfg.updateSecT, Option.map_eq_some_iff] at h1
          obtain ⟨sec, -, rfl⟩ := h1
          simp
        simp [Cfg.updateSecT, e, hs]
    | experiment =>
      cases h1 : common.updateSecT .model (exp .model) with
      | none => rfl
      | some c1 =>
        simp only [Option.bind_some]
        cases h2 : c1.updateSecT .sampler (exp .sampler) with
        | none => rfl
        | some c2 =>
          have e : c2 .experiment = common .experiment := by
            simp only [Cfg.updateSecT, Option.map_eq_some_iff] at h1 h2
            obtain ⟨sec, -, rfl⟩ := h1
            obtain ⟨sec', -, rfl⟩ := h2
            simp
          simp [Cfg.updateSecT, e, hs]
  simp [mainConfigT, h1]

/-! ### Files with one type per key -/

/-- Every value of the section has the type that `τ` gives to its key. -/
def Spec.TypedBy (τ : Key → Option Kind) (s : Sec Key Val) : Prop := ∀ k v, s k = some v → τ k = some (kind v)

/-- Every section of the configuration fits. -/
def Spec.CfgTypedBy (τ : Section → Key → Option Kind) (c : Cfg Key Val) : Prop := ∀ s, TypedBy (τ s) (c s)

theorem cast_of_kind {o v : Val} (h : kind o = kind v) : o.cast v = some v := by
  cases o <;> cases v <;> simp_all [Spec.kind, Val.cast]

theorem fieldUpdate_fits {t : Option Kind} {o n : Option Val} (ho : ∀ v, o = some v → t = some (kind v))
    (hn : ∀ v, n = some v → t = some (kind v)) : fieldUpdate o n = some (n.or o) := by
  cases n with
  | none => cases o <;> rfl
  | some v =>
    cases o with
    | none => rfl
    | some u =>
      have := Option.some.inj ((ho u rfl).symm.trans (hn v rfl))
      simp [fieldUpdate, cast_of_kind this]

theorem updateT_fits {τ : Key → Option Kind} {a b : Sec Key Val} (ha : TypedBy τ a) (hb : TypedBy τ b) :
    a.updateT b = some (a.update b) ∧ TypedBy τ (a.update b) := by
  have h : ∀ k, fieldUpdate (a k) (b k) = some (a.update b k) := fun k => fieldUpdate_fits (ha k) (hb k)
  refine ⟨?_, ?_⟩
  · unfold Sec.updateT
    rw [if_pos]
    · congr 1
      funext k
      rw [h k]
      rfl
    · rw [List.all_eq_true]
      intro k _
      rw [h k]
      rfl
  · intro k v hv
    unfold Sec.update at hv
    cases hbk : b k with
    | none => rw [hbk] at hv; exact ha k v (by simpa using hv)
    | some w =>
      rw [hbk] at hv
      obtain rfl : w = v := by simpa using hv
      exact hb k w hbk

theorem updateSecT_fits {τ : Section → Key → Option Kind} {c : Cfg Key Val} (s : Section) {b : Sec Key Val}
    (hc : CfgTypedBy τ c) (hb : TypedBy (τ s) b) :
    c.updateSecT s b = some (c.updateSec s b) ∧ CfgTypedBy τ (c.updateSec s b) := by
  obtain ⟨h1, h2⟩ := updateT_fits (hc s) hb
  constructor
  · unfold Cfg.updateSecT
    rw [h1]
    simp only [Option.map_some, Option.some.injEq]
    funext t
    by_cases ht : t = s
    · subst ht; simp [Cfg.updateSec]
    · simp [Cfg.updateSec, ht]
  · intro t
    by_cases ht : t = s
    · subst ht; simpa [Cfg.updateSec] using h2
    · simpa [Cfg.updateSec, ht] using hc t

theorem cfgUpdateT_fits {τ : Section → Key → Option Kind} {c b : Cfg Key Val} (hc : CfgTypedBy τ c) (hb : CfgTypedBy τ b) :
    c.updateT b = some (c.update b) ∧ CfgTypedBy τ (c.update b) := by
  obtain ⟨a1, f1⟩ := updateSecT_fits .model hc (hb .model)
  obtain ⟨a2, f2⟩ := updateSecT_fits .sampler f1 (hb .sampler)
  obtain ⟨a3, f3⟩ := updateSecT_fits .experiment f2 (hb .experiment)
  refine ⟨?_, by rw [update_eq]; exact f3⟩
  rw [update_eq]
  simp [Cfg.updateT, a1, a2, a3]

theorem override_fits {τ : Key → Option Kind} {s r : Sec Key Val} {a : Key × Val} (hs : TypedBy τ s)
    (h : s.override a = some r) : TypedBy τ r := by
  simp only [Sec.override, Option.bind_eq_bind, Option.bind_eq_some_iff, Option.pure_def, Option.some.injEq] at h
  obtain ⟨old, ho, v, hv, rfl⟩ := h
  intro k w hw
  by_cases hk : k = a.1
  · subst hk
    simp only [if_true, Option.some.injEq] at hw
    subst hw
    rw [hs _ _ ho]
    obtain ⟨k, n⟩ := a
    cases old <;> cases n <;> simp only [Val.parseAs, Option.some.injEq, reduceCtorEq] at hv <;> subst hv <;> rfl
  · simp only [hk, if_false] at hw
    exact hs _ _ hw

theorem overrides_fits {τ : Key → Option Kind} (as : List (Key × Val)) {s r : Sec Key Val} (hs : TypedBy τ s)
    (h : s.overrides as = some r) : TypedBy τ r := by
  induction as generalizing s with
  | nil =>
    simp only [Sec.overrides, List.foldlM_nil, Option.pure_def, Option.some.injEq] at h
    exact h ▸ hs
  | cons a as ih =>
    unfold Sec.overrides at h
    rw [List.foldlM_cons] at h
    simp only [Option.bind_eq_bind, Option.bind_eq_some_iff] at h
    obtain ⟨s', h1, h2⟩ := h
    exact ih (override_fits hs h1) h2

/-- **C84 (one type per key).** If every configuration gives each key the same type, and `num_models` has one type in both
sections, then type checks never matter: the merge with them is the merge without them. -/
theorem mainConfigT_eq {τ : Section → Key → Option Kind} {graphCfg : Val → Val → Val → Option (Sec Key Val)}
    {coDefault : Sec Key Val} {common exp : Cfg Key Val} {samplerCfg modelCfg : Sec Key Val}
    (hnm : τ .experiment .num_models = τ .model .num_models)
    (hG : ∀ a b d g, graphCfg a b d = some g → TypedBy (τ .model) g) (hco : TypedBy (τ .experiment) coDefault)
    (hcm : CfgTypedBy τ common) (he : CfgTypedBy τ exp) (hs : TypedBy (τ .sampler) samplerCfg)
    (hm : TypedBy (τ .model) modelCfg) :
    mainConfigT graphCfg coDefault common exp samplerCfg modelCfg =
      mainConfig launchKeys Val.truthy graphCfg coDefault common exp samplerCfg modelCfg := by
  obtain ⟨d1, hd1⟩ : ∃ d1, d1 = (if (modelCfg .graph_type).isNone && (modelCfg .bert_model).isNone
    then common.update exp else common) := ⟨_, rfl⟩
  have s1 : mergeStartT common exp modelCfg = some d1 ∧ CfgTypedBy τ d1 := by
    rw [hd1]
    unfold mergeStartT
    split_ifs
    · exact cfgUpdateT_fits hcm he
    · exact ⟨rfl, hcm⟩
  obtain ⟨s2, f2⟩ := updateSecT_fits .sampler s1.2 hs
  obtain ⟨s3, f3⟩ := updateSecT_fits .model f2 hm
  obtain ⟨d3, hd3⟩ : ∃ d3, d3 = (d1.updateSec .sampler samplerCfg).updateSec .model modelCfg := ⟨_, rfl⟩
  rw [← hd3] at s3 f3
  have bert : ∀ d, CfgTypedBy τ d → mergeBertT exp d =
      (if getTrue Val.truthy (d .model) .bert_model then some (d.update exp) else some d) := by
    intro d hd
    unfold mergeBertT
    rw [(cfgUpdateT_fits hd he).1]
  have typed : mainConfigT graphCfg coDefault common exp samplerCfg modelCfg =
      (mergeGraphT graphCfg coDefault exp d3).bind (mergeBertT exp) := by
    simp [mainConfigT, s1.1, s2, s3]
  rw [typed]
  by_cases hg : getTrue Val.truthy (d3 .model) .graph_type = true
  · cases h1 : d3 .model .name with
    | none =>
      have := mainConfig_none launchKeys Val.truthy (graphCfg := graphCfg) (coDefault := coDefault) hd1 hd3 hg
        (Or.inl h1)
      rw [this]
      simp [mergeGraphT, hg, h1]
    | some nm =>
    cases h2 : d3 .model .graph_type with
    | none =>
      have := mainConfig_none launchKeys Val.truthy (graphCfg := graphCfg) (coDefault := coDefault) hd1 hd3 hg
        (Or.inr (Or.inl h2))
      rw [this]
      simp [mergeGraphT, hg, h1, h2]
    | some gt =>
    cases h3 : d3 .model .cfg_str with
    | none =>
      have := mainConfig_none launchKeys Val.truthy (graphCfg := graphCfg) (coDefault := coDefault) hd1 hd3 hg
        (Or.inr (Or.inr (Or.inl h3)))
      rw [this]
      simp [mergeGraphT, hg, h1, h2, h3]
    | some cs =>
    cases h4 : graphCfg nm gt cs with
    | none =>
      have := mainConfig_none launchKeys Val.truthy (graphCfg := graphCfg) (coDefault := coDefault) hd1 hd3 hg
        (Or.inr (Or.inr (Or.inr (Or.inl ⟨nm, gt, cs, h1, h2, h3, h4⟩))))
      rw [this]
      simp [mergeGraphT, hg, h1, h2, h3, h4]
    | some g =>
    obtain ⟨s5, f5⟩ := updateSecT_fits .model f3 (hG _ _ _ _ h4)
    obtain ⟨s6, f6⟩ := updateSecT_fits .experiment f5 hco
    obtain ⟨s7, f7⟩ := cfgUpdateT_fits f6 he
    obtain ⟨d7, hd7⟩ : ∃ d7, d7 = ((d3.updateSec .model g).updateSec .experiment coDefault).update exp := ⟨_, rfl⟩
    rw [← hd7] at s7 f7
    cases h5 : d7 .model .num_models with
    | none =>
      have := mainConfig_none launchKeys Val.truthy (graphCfg := graphCfg) (coDefault := coDefault) hd1 hd3 hg
        (Or.inr (Or.inr (Or.inr (Or.inr ⟨nm, gt, cs, g, h1, h2, h3, h4, by rw [← hd7]; exact h5⟩))))
      rw [this]
      simp [mergeGraphT, hg, h1, h2, h3, h4, s5, s6, s7, h5]
    | some n =>
      have hset : d7.setKeyT .experiment .num_models n = some (d7.setKey .experiment .num_models n) := by
        have hn := f7 .model _ _ h5
        unfold Cfg.setKeyT
        rw [fieldUpdate_fits (t := τ .experiment .num_models) (f7 .experiment .num_models)
          (fun v hv => by obtain rfl := Option.some.inj hv; rw [hnm, hn])]
        simp only [Option.map_some, Option.some.injEq, Option.some_or]
        rfl
      have f8 : CfgTypedBy τ (d7.setKey .experiment .num_models n) := by
        intro t k v hv
        by_cases ht : t = .experiment ∧ k = .num_models
        · obtain ⟨rfl, rfl⟩ := ht
          have hvn : n = v := by simpa [Cfg.setKey] using hv
          subst hvn
          rw [hnm]
          exact f7 .model _ _ h5
        · exact f7 t k v (by simpa [Cfg.setKey, ht] using hv)
      have hd4 : (if getTrue Val.truthy (d3 .model) .graph_type then (do
          let nm ← d3 .model .name
          let gt ← d3 .model .graph_type
          let cs ← d3 .model .cfg_str
          let g ← graphCfg nm gt cs
          let c := d3.updateSec .model g
          let c := c.updateSec .experiment coDefault
          let c := c.update exp
          let n ← c .model .num_models
          some (c.setKey .experiment .num_models n)) else some d3) =
          some (d7.setKey .experiment .num_models n) := by
        rw [if_pos hg]
        simp only [h1, h2, h3, h4, Option.bind_eq_bind, Option.bind_some, ← hd7, h5]
      rw [mainConfig_stages launchKeys Val.truthy hd1 hd3 hd4]
      have : mergeGraphT graphCfg coDefault exp d3 = some (d7.setKey .experiment .num_models n) := by
        simp [mergeGraphT, hg, h1, h2, h3, h4, s5, s6, s7, h5, hset]
      rw [this]
      exact bert _ f8
  · have hd4 : (if getTrue Val.truthy (d3 .model) .graph_type then (do
        let nm ← d3 .model .name
        let gt ← d3 .model .graph_type
        let cs ← d3 .model .cfg_str
        let g ← graphCfg nm gt cs
        let c := d3.updateSec .model g
        let c := c.updateSec .experiment coDefault
        let c := c.update exp
        let n ← c .model .num_models
        some (c.setKey .experiment .num_models n)) else some d3) = some d3 := if_neg hg
    rw [mainConfig_stages launchKeys Val.truthy hd1 hd3 hd4]
    have : mergeGraphT graphCfg coDefault exp d3 = some d3 := by
      unfold mergeGraphT
      rw [if_neg hg]
    rw [this]
    exact bert _ f3

/-- **C117 (one type per key).** If the files a job uses give each key one type, type checks change nothing, whatever the
job sets: overrides never change the type of a value. -/
theorem launchT_eq {R : Repo} {rc : RunConfig} {τ : Section → Key → Option Kind}
    (hnm : τ .experiment .num_models = τ .model .num_models)
    (hG : ∀ a b d g, R.graph a b d = some g → TypedBy (τ .model) g) (hco : TypedBy (τ .experiment) R.coDefault)
    (hcm : CfgTypedBy τ R.common) (hm : ∀ mf, R.model rc.model = some mf → TypedBy (τ .model) mf)
    (hs : ∀ n sf, R.sampler n = some sf → TypedBy (τ .sampler) sf)
    (he : ∀ ef, rc.experimentFile R = some ef → CfgTypedBy τ ef) (saveDir folder : String) (kw : List Arg) :
    launchT R rc saveDir folder kw = launch R rc saveDir folder kw := by
  unfold launchT launch
  simp only [Option.bind_eq_bind]
  cases h1 : R.model rc.model with
  | none => rfl
  | some mf =>
  simp only [Option.bind_some]
  cases h2 : R.sampler (jobSampler rc (jobArgs rc saveDir folder kw)) with
  | none => rfl
  | some sf =>
  simp only [Option.bind_some]
  cases h3 : rc.experimentFile R with
  | none => rfl
  | some ef =>
  simp only [Option.bind_some]
  cases h4 : mf.overrides (argsOf .model (jobArgs rc saveDir folder kw)) with
  | none => rfl
  | some m =>
  simp only [Option.bind_some]
  cases h5 : sf.overrides (argsOf .sampler (jobArgs rc saveDir folder kw)) with
  | none => rfl
  | some s =>
  simp only [Option.bind_some]
  cases h6 : (ef .experiment).overrides (argsOf .experiment (jobArgs rc saveDir folder kw)) with
  | none => rfl
  | some e =>
  simp only [Option.bind_some]
  refine mainConfigT_eq hnm hG hco hcm (fun t => ?_) (overrides_fits _ (hs _ _ h2) h5) (overrides_fits _ (hm _ h1) h4)
  by_cases ht : t = .experiment
  · subst ht
    simpa using overrides_fits _ (he _ h3 .experiment) h6
  · simpa [ht] using he _ h3 t

/-! ### The shipped files -/

/-- The types of the keys of a graph configuration. -/
def graphTypes : Key → Option Kind
  | .name => some .str
  | .num_models => some .int
  | .max_num_nodes => some .int
  | .max_num_edges => some .int
  | .num_instances => some .int
  | .num_categories => some .int
  | .shape => some .tuple
  | .rand_type => some .str
  | .penalty => some .float
  | .tolerance => some .float
  | _ => none

/-- The types in files with the given entries, together with the files every job uses. -/
def shippedTypes (model experiment : List (Key × Val)) : Section → Key → Option Kind
  | .model => fun k => (((Sec.ofList (model ++ commonModel)) k).map kind).or (graphTypes k)
  | .sampler => fun k => ((Sec.ofList (samplerFiles.flatMap Prod.snd ++ commonSampler)) k).map kind
  | .experiment => fun k => ((Sec.ofList (experiment ++ commonExperiment ++ coFile)) k).map kind

theorem typedBy_ofList {τ : Key → Option Kind} {l : List (Key × Val)}
    (h : (l.all fun kv => τ kv.1 == some (kind kv.2)) = true) : TypedBy τ (Sec.ofList l) := by
  intro k v hv
  have hm : (k, v) ∈ l := by
    unfold Sec.ofList at hv
    rw [List.lookup_eq_some_iff] at hv
    obtain ⟨l1, l2, rfl, -⟩ := hv
    simp
  simpa using List.all_eq_true.1 h _ hm

theorem lookup_mem {α β : Type} [BEq α] [LawfulBEq α] {l : List (α × β)} {a : α} {b : β} (h : l.lookup a = some b) :
    (a, b) ∈ l := by
  rw [List.lookup_eq_some_iff] at h
  obtain ⟨l1, l2, rfl, -⟩ := h
  simp

/-- All pairs of a model file (or none) and an experiment file. -/
theorem typesCheck : (([] :: modelFiles.map Prod.snd).all fun m =>
    (commonExperiment :: lmFile :: experimentFiles.map Prod.snd).all fun e =>
      let τ := shippedTypes m e
      (τ .experiment .num_models == τ .model .num_models) &&
      (m.all fun kv => τ .model kv.1 == some (kind kv.2)) &&
      (commonModel.all fun kv => τ .model kv.1 == some (kind kv.2)) &&
      (commonSampler.all fun kv => τ .sampler kv.1 == some (kind kv.2)) &&
      (commonExperiment.all fun kv => τ .experiment kv.1 == some (kind kv.2)) &&
      (coFile.all fun kv => τ .experiment kv.1 == some (kind kv.2)) &&
      (e.all fun kv => τ .experiment kv.1 == some (kind kv.2)) &&
      (samplerFiles.all fun f => f.2.all fun kv => τ .sampler kv.1 == some (kind kv.2)) &&
      Key.all.all fun k => (graphTypes k).isNone || τ .model k == graphTypes k) = true := by
  decide +kernel

theorem graphSec_typed {τ : Key → Option Kind} (h : ∀ k, graphTypes k ≠ none → τ k = graphTypes k) (g : GraphModelCfg) :
    TypedBy τ g.sec := by
  intro k v hv
  have : graphTypes k = some (kind v) := by
    cases k <;> simp only [GraphModelCfg.sec, Option.map_eq_some_iff, Option.some.injEq, reduceCtorEq] at hv <;>
      first
        | (subst hv; rfl)
        | (obtain ⟨w, -, rfl⟩ := hv; rfl)
  rw [h k (by simp [this]), this]

/-- **C117 (type checks).** With the shipped files the type checks of `ml_collections` never matter: for every model,
sampler and graph type and every list of overrides the same jobs start, with the same configuration. -/
theorem shipped_typed (rc : RunConfig) (saveDir folder : String) (kw : List Arg) :
    launchT shippedRepo rc saveDir folder kw = launch shippedRepo rc saveDir folder kw := by
  obtain ⟨m, hm, hmm⟩ : ∃ m, (∀ mf, shippedRepo.model rc.model = some mf → mf = Sec.ofList m) ∧
      m ∈ ([] :: modelFiles.map Prod.snd) := by
    cases h : modelFiles.lookup rc.model with
    | none => exact ⟨[], fun mf hmf => by simp [shippedRepo, h] at hmf, by simp⟩
    | some m =>
      refine ⟨m, fun mf hmf => ?_, List.mem_cons_of_mem _ (List.mem_map.2 ⟨_, lookup_mem h, rfl⟩)⟩
      simp only [shippedRepo, h, Option.map_some, Option.some.injEq] at hmf
      exact hmf.symm
  obtain ⟨e, he, hee⟩ : ∃ e, (∀ ef, rc.experimentFile shippedRepo = some ef →
        ef = cfgOf [] [] e ∨ ef = cfgOf commonModel commonSampler e) ∧
      e ∈ (commonExperiment :: lmFile :: experimentFiles.map Prod.snd) := by
    unfold RunConfig.experimentFile
    cases hg : rc.graph? with
    | some g =>
      cases h : experimentFiles.lookup (rc.model, g) with
      | none => exact ⟨lmFile, fun ef hef => by simp [shippedRepo, h] at hef, by simp⟩
      | some e =>
        refine ⟨e, fun ef hef => ?_,
          List.mem_cons_of_mem _ (List.mem_cons_of_mem _ (List.mem_map.2 ⟨_, lookup_mem h, rfl⟩))⟩
        simp only [shippedRepo, h, Option.map_some, Option.some.injEq] at hef
        exact Or.inl hef.symm
    | none =>
      by_cases ht : rc.model = "text_infilling"
      · refine ⟨lmFile, fun ef hef => ?_, by simp⟩
        simp only [ht, if_true, shippedRepo, Option.some.injEq] at hef
        exact Or.inl hef.symm
      · refine ⟨commonExperiment, fun ef hef => ?_, by simp⟩
        simp only [ht, if_false, shippedRepo, Option.some.injEq] at hef
        exact Or.inr hef.symm
  have h := List.all_eq_true.1 (List.all_eq_true.1 typesCheck m hmm) e hee
  simp only [Bool.and_eq_true, beq_iff_eq] at h
  obtain ⟨⟨⟨⟨⟨⟨⟨⟨h1, h2⟩, h3⟩, h4⟩, h5⟩, h6⟩, h7⟩, h8⟩, h9⟩ := h
  have hgt : ∀ k, graphTypes k ≠ none → shippedTypes m e .model k = graphTypes k := by
    intro k hk
    have := List.all_eq_true.1 h9 k (Key.mem_all k)
    simp only [Bool.or_eq_true, Option.isNone_iff_eq_none, beq_iff_eq] at this
    exact this.resolve_left hk
  refine launchT_eq (τ := shippedTypes m e) h1 ?_ (typedBy_ofList h6) ?_ ?_ ?_ ?_ saveDir folder kw
  · intro a b d g hg
    simp only [shippedRepo, shippedGraph] at hg
    split at hg
    · simp only [Option.map_eq_some_iff] at hg
      obtain ⟨g', -, rfl⟩ := hg
      exact graphSec_typed hgt g'
    · simp at hg
  · intro s
    cases s
    · exact typedBy_ofList h3
    · exact typedBy_ofList h4
    · exact typedBy_ofList h5
  · intro mf hmf
    rw [hm mf hmf]
    exact typedBy_ofList h2
  · intro n sf hsf
    simp only [shippedRepo, Option.map_eq_some_iff] at hsf
    obtain ⟨l, hl, rfl⟩ := hsf
    exact typedBy_ofList (List.all_eq_true.1 h8 _ (lookup_mem hl))
  · intro ef hef s
    have hnil : ∀ τ : Key → Option Kind, TypedBy τ (Sec.ofList []) := fun τ => typedBy_ofList rfl
    rcases he ef hef with rfl | rfl <;> cases s
    · exact hnil _
    · exact hnil _
    · exact typedBy_ofList h7
    · exact typedBy_ofList h3
    · exact typedBy_ofList h4
    · exact typedBy_ofList h7

/-! ### Settings that take no fractions -/

/-- **C117 (fractions refused).** A value that a file gives as an integer can be overridden by integers only: a job that
sets it to a number with a fraction, or to any float, does not start. -/
theorem float_refused {R : Repo} {rc : RunConfig} {saveDir folder : String} {kw : List Arg}
    (hnd : (kw.map Prod.fst).Nodup) {s : Section} {k : Key} {q : ℚ} {z : ℤ} {file : Sec Key Val}
    (hf : fileSec R rc (jobArgs rc saveDir folder kw) s = some file) (hz : file k = some (.int z))
    (hk : ((s, k), Val.float q) ∈ kw) : launch R rc saveDir folder kw = none := by
  by_contra h
  obtain ⟨c, hc⟩ := Option.ne_none_iff_exists'.1 h
  have hmem : (k, Val.float q) ∈ argsOf s (jobArgs rc saveDir folder kw) := by
    rw [mem_argsOf]
    unfold jobArgs
    refine List.mem_map.2 ⟨((s, k), .float q), List.mem_append.2 (Or.inr hk), ?_⟩
    split
    · rename_i h'
      simp at h'
    · rfl
  have key : ∀ out, file.overrides (argsOf s (jobArgs rc saveDir folder kw)) ≠ some out := by
    intro out ho
    have hsp := overrides_spec file _ (argsOf_nodup s (jobArgs_nodup rc saveDir folder hnd))
    obtain ⟨old, hold, hw⟩ := hsp.1.1 (by rw [ho]; rfl) _ hmem
    rw [hz] at hold
    obtain rfl := Option.some.inj hold
    simp [Spec.Fits] at hw
  obtain ⟨mf, sf, ef, m, sc, e, h1, h2, h3, h4, h5, h6, h7⟩ := launch_some hc
  cases s with
  | model =>
    simp only [fileSec, h1, Option.some.injEq] at hf
    exact key m (hf ▸ h4)
  | sampler =>
    simp only [fileSec, h2, Option.some.injEq] at hf
    exact key sc (hf ▸ h5)
  | experiment =>
    simp only [fileSec, h3, Option.map_some, Option.some.injEq] at hf
    exact key e (hf ▸ h6)

/-- **C117 (fractions refused, in the shipped files).** The coupling of the Potts model, the deviation of the factorial
hidden Markov model and the initial temperature of the independent set and normalised cut experiments are written as
integers, so no job can set them to a float; the coupling of the Ising model takes floats. -/
theorem shipped_integers (saveDir folder : String) (q : ℚ) (file dir sampler : String)
    (sweep : List (List ((Section × Key) × List Val))) :
    launch shippedRepo ⟨file, dir, "potts", sampler, none, sweep⟩ saveDir folder
        [((.model, .lambdaa), .float q)] = none ∧
    launch shippedRepo ⟨file, dir, "fhmm", sampler, none, sweep⟩ saveDir folder
        [((.model, .sigma), .float q)] = none ∧
    (∀ mg ∈ [("mis", "er_density"), ("mis", "ertest"), ("mis", "satlib"), ("normcut", "gap_rand"), ("normcut", "nets")],
      launch shippedRepo ⟨file, dir, mg.1, sampler, some mg.2, sweep⟩ saveDir folder
        [((.experiment, .init_temperature), .float q)] = none) ∧
    (launch shippedRepo ⟨file, dir, "ising", "gwg", none, sweep⟩ saveDir folder
        [((.model, .lambdaa), .float q)]).isSome := by
  refine ⟨float_refused (by simp) (q := q) (s := .model) (k := .lambdaa) rfl rfl (by simp),
    float_refused (by simp) (q := q) (s := .model) (k := .sigma) rfl rfl (by simp), ?_, rfl⟩
  · intro mg hmg
    simp only [List.mem_cons, List.not_mem_nil, or_false] at hmg
    rcases hmg with rfl | rfl | rfl | rfl | rfl <;>
      exact float_refused (by simp) (q := q) (s := .experiment) (k := .init_temperature) rfl rfl (by simp)

/-- The initial temperature of maximum cut takes fractions. -/
example : (launch shippedRepo ⟨"", "", "maxcut", "gwg", some "ba", []⟩ "" ""
    [((.experiment, .init_temperature), .float (1 / 2))]).isSome = true := by
  decide +kernel

/-- Type checks do make a difference elsewhere: an integer for a float is converted, a text for an integer raises. -/
example : Sec.updateT (fun k => if k = .ess_ratio then some (.float (1 / 2)) else none)
      (fun k => if k = .ess_ratio then some (.str "1") else none) = none ∧
    ((Sec.updateT (fun k => if k = .ess_ratio then some (.float (1 / 2)) else none)
      (fun k => if k = .ess_ratio then some (.int 1) else none)).bind fun s => s .ess_ratio) = some (.float 1) := by
  constructor <;> decide +kernel

end Discs
