import Verif.Model.PlotUtils
import Verif.Props.Loader

/-!
# C86: result folders carry the configuration of their job
-/

namespace Discs

namespace Spec

/-- The value as it is displayed: the string itself, or the printed form. -/
def shown : SweepVal → List Char
  | .str s => s
  | .other r => r

/-- Values that survive: no separator, no quote, no slash; printed forms of other values are not empty and
do not have an opening parenthesis in second place. -/
def PlainVal : SweepVal → Prop
  | .str s => ',' ∉ s ∧ '=' ∉ s ∧ '\'' ∉ s ∧ '/' ∉ s
  | .other r => ',' ∉ r ∧ '=' ∉ r ∧ '\'' ∉ r ∧ '/' ∉ r ∧ r ≠ [] ∧ r[1]? ≠ some '('

/-- Keys that survive. -/
def PlainKey (k : List Char) : Prop := ',' ∉ k ∧ '=' ∉ k ∧ '/' ∉ k

end Spec

theorem afterFirst_eq (wu rest : List Char) (h : '_' ∉ wu) : afterFirst '_' (wu ++ '_' :: rest) = rest := by
  have : (wu ++ '_' :: rest).idxOf? '_' = some wu.length := by
    induction wu with
    | nil => simp [List.idxOf?_cons]
    | cons c wu ih =>
      have hc : ¬ c = '_' := fun e => h (e ▸ List.mem_cons_self)
      have := ih fun hm => h (List.mem_cons_of_mem _ hm)
      rw [List.cons_append, List.idxOf?_cons, this]
      simp [hc]
  unfold afterFirst
  rw [this]
  simp

theorem parseValue_repr (v : SweepVal) (h : Spec.PlainVal v) : parseValue v.repr = some (Spec.shown v) := by
  cases v with
  | str s =>
    have h1 : ('\'' :: (s ++ ['\''])).getLast? = some '\'' := by
      rw [← List.cons_append]; exact List.getLast?_concat
    unfold parseValue SweepVal.repr
    simp [Spec.shown, h1]
  | other r =>
    obtain ⟨_, _, h3, _, h5, h6⟩ := h
    have hne : r.isEmpty = false := by cases r <;> simp_all
    have hh : (decide (r.head? = some '\'') && decide (r.getLast? = some '\'')) = false := by
      have : r.head? ≠ some '\'' := fun e => h3 (List.mem_of_mem_head? e)
      simp [this]
    unfold parseValue SweepVal.repr
    simp only [hne, Bool.false_eq_true, if_false, hh]
    have : decide (r[1]? = some '(') = false := by simpa using h6
    simp [this, Spec.shown]

/-- **C86 (shapes).** A quoted tuple, cut at its first comma, loses the quote and the bracket: what is
left is the first entry of the tuple. -/
theorem parseValue_tuple (r : List Char) (hr : r.getLast? ≠ some '\'') :
    parseValue ('\'' :: '(' :: r) = some r := by
  have : ('(' :: r).getLast? ≠ some '\'' := by
    cases r with
    | nil => simp
    | cons a r => simpa [List.getLast?_cons_cons] using hr
  unfold parseValue
  simpa using fun h => absurd h this

theorem map_slash_id (l : List Char) (h : '/' ∉ l) : l.map (fun c => if c = '/' then '-' else c) = l := by
  conv_rhs => rw [← List.map_id l]
  refine List.map_congr_left fun c hc => ?_
  have : c ≠ '/' := fun e => h (e ▸ hc)
  rw [if_neg this]; rfl

theorem parseItems_eq (kws : List (List Char × SweepVal))
    (hk : ∀ kv ∈ kws, Spec.PlainKey kv.1 ∧ Spec.PlainVal kv.2 ∧ kv.1 ≠ "cfg_str".toList) :
    parseItems (kws.map fun kv => kv.1 ++ '=' :: kv.2.repr)
      = some (kws.map fun kv => ((kv.1.splitOn '.').getLastD [], Spec.shown kv.2)) := by
  induction kws with
  | nil => rfl
  | cons kv kws ih =>
    obtain ⟨hkey, hval, hcfg⟩ := hk kv List.mem_cons_self
    have hrep : '=' ∉ kv.2.repr := by
      cases hv : kv.2 with
      | str s => rw [hv] at hval; simpa [SweepVal.repr] using hval.2.1
      | other r => rw [hv] at hval; exact hval.2.1
    have hsplit : (kv.1 ++ '=' :: kv.2.repr).splitOn '=' = [kv.1, kv.2.repr] := by
      rw [List.splitOn_append_cons_self, List.splitOn_eq_singleton hkey.2.1, List.splitOn_eq_singleton hrep]
      rfl
    rw [List.map_cons, parseItems, hsplit]
    simp only [parseValue_repr _ hval, Option.bind_eq_bind, Option.bind_some,
      ih fun kv hkv => hk kv (List.mem_cons_of_mem _ hkv), Option.pure_def, if_neg hcfg, List.map_cons]

theorem slash_notMem_intercalate (l : List (List Char)) (h : ∀ p ∈ l, '/' ∉ p) :
    '/' ∉ [','].intercalate l := by
  induction l with
  | nil => simp [List.intercalate]
  | cons a l ih =>
    cases l with
    | nil => simpa [List.intercalate] using h a List.mem_cons_self
    | cons b l =>
      have e : [','].intercalate (a :: b :: l) = a ++ ',' :: [','].intercalate (b :: l) := by
        simp [List.intercalate, List.intersperse]
      rw [e]
      have h1 := h a List.mem_cons_self
      have h2 := ih fun p hp => h p (List.mem_cons_of_mem _ hp)
      simp [h1, h2]

/-- What is parsed from the folder of a job with plain keys and values. -/
theorem experimentConfig_folder (wu : List Char) (hwu : '_' ∉ wu) (kwargs : List (List Char × SweepVal))
    (hne : kwargs ≠ [])
    (hk : ∀ kv ∈ kwargs, Spec.PlainKey (stripSection kv.1) ∧ Spec.PlainVal kv.2)
    (hcfg : findWord "cfg_str".toList (afterFirst '_' (folderName wu kwargs)) = none)
    (hcfg' : ∀ kv ∈ kwargs, stripSection kv.1 ≠ "cfg_str".toList) :
    experimentConfig (folderName wu kwargs)
      = some ((kwargs.map fun kv => (((stripSection kv.1).splitOn '.').getLastD [], Spec.shown kv.2)).foldl
          (fun d kv => dictSet d kv.1 kv.2) []) := by
  have hparts : ∀ p ∈ kwargs.map fun kv => stripSection kv.1 ++ '=' :: kv.2.repr, ',' ∉ p ∧ '/' ∉ p := by
    intro p hp
    obtain ⟨kv, hkv, rfl⟩ := List.mem_map.1 hp
    obtain ⟨h1, h2⟩ := hk kv hkv
    have hv : ',' ∉ kv.2.repr ∧ '/' ∉ kv.2.repr := by
      cases hv : kv.2 with
      | str s => rw [hv] at h2; simpa [SweepVal.repr] using ⟨h2.1, h2.2.2.2⟩
      | other r => rw [hv] at h2; exact ⟨h2.1, h2.2.2.2.1⟩
    simp [h1.1, h1.2.2, hv.1, hv.2]
  have haf : afterFirst '_' (folderName wu kwargs)
      = [','].intercalate (kwargs.map fun kv => stripSection kv.1 ++ '=' :: kv.2.repr) := by
    unfold folderName
    rw [afterFirst_eq _ _ hwu]
    exact map_slash_id _ (slash_notMem_intercalate _ fun p hp => (hparts p hp).2)
  unfold experimentConfig
  simp only [hcfg]
  rw [haf, List.splitOn_intercalate _ (fun p hp => (hparts p hp).1) (by simpa using hne)]
  have := parseItems_eq (kwargs.map fun kv => (stripSection kv.1, kv.2)) (by
    intro kv hkv
    obtain ⟨kv', hkv', rfl⟩ := List.mem_map.1 hkv
    exact ⟨(hk kv' hkv').1, (hk kv' hkv').2, hcfg' kv' hkv'⟩)
  rw [List.map_map, List.map_map] at this
  simp only [Function.comp_def] at this
  rw [this]
  rfl

theorem foldl_dictSet_get {K V : Type*} [DecidableEq K] (l : List (K × V)) :
    ∀ (d : List (K × V)), (l.map Prod.fst).Nodup → ∀ kv ∈ l,
      dictGet (l.foldl (fun d kv => dictSet d kv.1 kv.2) d) kv.1 = some kv.2 := by
  have keep : ∀ (l : List (K × V)) (d : List (K × V)) k, k ∉ l.map Prod.fst →
      dictGet (l.foldl (fun d kv => dictSet d kv.1 kv.2) d) k = dictGet d k := by
    intro l
    induction l with
    | nil => intro d k _; rfl
    | cons a l ih =>
      intro d k hk
      rw [List.foldl_cons, ih _ _ fun h => hk (List.mem_cons_of_mem _ h), dictGet_set, if_neg]
      exact fun e => hk (e ▸ List.mem_cons_self)
  induction l with
  | nil => intro d _ kv h; cases h
  | cons a l ih =>
    intro d hnd kv hkv
    rw [List.map_cons, List.nodup_cons] at hnd
    rcases List.mem_cons.1 hkv with rfl | h
    · rw [List.foldl_cons, keep l _ _ hnd.1, dictGet_set, if_pos rfl]
    · rw [List.foldl_cons]
      exact ih _ hnd.2 kv h

/-- **C86, what holds.** Writing the swept settings into the name of the result folder and reading them
back gives every setting its value, for settings with plain keys and values whose short names are
distinct and when `cfg_str` is not swept. -/
theorem folder_roundtrip_partial (wu : List Char) (hwu : '_' ∉ wu) (kwargs : List (List Char × SweepVal))
    (hk : ∀ kv ∈ kwargs, Spec.PlainKey (stripSection kv.1) ∧ Spec.PlainVal kv.2)
    (hcfg : findWord "cfg_str".toList (afterFirst '_' (folderName wu kwargs)) = none)
    (hcfg' : ∀ kv ∈ kwargs, stripSection kv.1 ≠ "cfg_str".toList)
    (hnd : (kwargs.map fun kv => ((stripSection kv.1).splitOn '.').getLastD []).Nodup)
    (kv : List Char × SweepVal) (hkv : kv ∈ kwargs) :
    ∃ d, experimentConfig (folderName wu kwargs) = some d ∧
      dictGet d (((stripSection kv.1).splitOn '.').getLastD []) = some (Spec.shown kv.2) := by
  refine ⟨_, experimentConfig_folder wu hwu kwargs (List.ne_nil_of_mem hkv) hk hcfg hcfg', ?_⟩
  refine foldl_dictSet_get _ [] ?_
    (((stripSection kv.1).splitOn '.').getLastD [], Spec.shown kv.2) (List.mem_map.2 ⟨kv, hkv, rfl⟩)
  rw [List.map_map]
  exact hnd

/-- The section of a setting is dropped from its key; other keys are kept. -/
theorem stripSection_spec (r : List Char) :
    (∀ p ∈ ["config.experiment.".toList, "model_config.".toList, "sampler_config.".toList],
      stripSection (p ++ r) = r) ∧
    ((∀ p ∈ ["config.experiment.".toList, "model_config.".toList, "sampler_config.".toList], ¬ p <+: r) →
      stripSection r = r) := by
  constructor
  · intro p hp
    simp only [List.mem_cons, List.not_mem_nil, or_false] at hp
    rcases hp with rfl | rfl | rfl <;> rfl
  · intro h
    unfold stripSection
    have : List.find? (fun p => p.isPrefixOf r)
        ["config.experiment.".toList, "model_config.".toList, "sampler_config.".toList] = none := by
      rw [List.find?_eq_none]
      intro p hp
      rw [List.isPrefixOf_iff_prefix]
      exact h p hp
    simp only [this]

/-- `findWord` finds nothing exactly if the word is not in the string. -/
theorem findWord_none (w : List Char) : ∀ s : List Char, findWord w s = none ↔ ¬ w <:+: s := by
  intro s
  induction s with
  | nil => cases w <;> simp [findWord]
  | cons c s ih =>
    rw [List.infix_cons_iff, findWord]
    by_cases h : w.isPrefixOf (c :: s) = true
    · simp [h, List.isPrefixOf_iff_prefix.1 h]
    · have h' : ¬ w <+: c :: s := fun e => h (List.isPrefixOf_iff_prefix.2 e)
      rw [if_neg h, Option.map_eq_none_iff, ih]
      simp [h']

/-! ### Folders of jobs that sweep `cfg_str` -/

theorem parseItems_append (a b : List (List Char)) {x y : List (List Char × List Char)}
    (ha : parseItems a = some x) (hb : parseItems b = some y) : parseItems (a ++ b) = some (x ++ y) := by
  induction a generalizing x with
  | nil => rw [parseItems, Option.some.injEq] at ha; subst ha; simpa using hb
  | cons item a ih =>
    rw [List.cons_append, parseItems]
    rw [parseItems] at ha
    split at ha
    · rename_i k v hs
      simp only [Option.bind_eq_bind, Option.pure_def] at ha ⊢
      obtain ⟨v', hv, ha⟩ := Option.bind_eq_some_iff.1 ha
      obtain ⟨r, hr, ha⟩ := Option.bind_eq_some_iff.1 ha
      rw [Option.some.injEq] at ha
      rw [hv, ih hr]
      subst ha
      simp only [Option.bind_some]
      split <;> rfl
    · exact ih ha

/-- Items without `=`, and the item of `cfg_str`, contribute nothing in the loop. -/
theorem parseItems_skip (l : List (List Char))
    (h : ∀ p ∈ l, '=' ∉ p ∨ ∃ v, v ≠ [] ∧ '=' ∉ v ∧ p = "cfg_str".toList ++ '=' :: v) :
    parseItems l = some [] := by
  induction l with
  | nil => rfl
  | cons p l ih =>
    have ih := ih fun q hq => h q (List.mem_cons_of_mem _ hq)
    rcases h p List.mem_cons_self with hp | ⟨v, hv0, hv, rfl⟩
    · rw [parseItems, List.splitOn_eq_singleton hp]
      exact ih
    · have hs : ("cfg_str".toList ++ '=' :: v).splitOn '=' = ["cfg_str".toList, v] := by
        rw [List.splitOn_append_cons_self, List.splitOn_eq_singleton (by decide), List.splitOn_eq_singleton hv]
        rfl
      have hval : ∃ v', parseValue v = some v' := by
        unfold parseValue
        have : v.isEmpty = false := by simpa using hv0
        rw [this]
        split
        · contradiction
        · split
          · exact ⟨_, rfl⟩
          · split <;> exact ⟨_, rfl⟩
      obtain ⟨v', hv'⟩ := hval
      rw [parseItems, hs]
      simp only [hv', ih, Option.bind_eq_bind, Option.bind_some, Option.pure_def, if_true]

/-- The first occurrence of a word without commas that starts an item. -/
theorem findWord_item (w r : List Char) (hw : ',' ∉ w) (hw0 : w ≠ []) :
    ∀ a : List Char, ¬ w <:+: a → findWord w (a ++ ',' :: (w ++ r)) = some (a.length + 1) := by
  intro a
  have hfirst : findWord w (w ++ r) = some 0 := by
    cases w with
    | nil => exact absurd rfl hw0
    | cons c w =>
      rw [List.cons_append, findWord, if_pos]
      rw [List.isPrefixOf_iff_prefix]
      exact ⟨r, rfl⟩
  induction a with
  | nil =>
    intro _
    rw [List.nil_append, findWord, if_neg, hfirst]
    · rfl
    · rw [List.isPrefixOf_iff_prefix]
      intro h
      cases w with
      | nil => exact hw0 rfl
      | cons c w =>
        rw [List.cons_prefix_cons] at h
        exact hw (h.1 ▸ List.mem_cons_self)
  | cons c a ih =>
    intro h
    rw [List.infix_cons_iff, not_or] at h
    rw [List.cons_append, findWord, if_neg, ih h.2]
    · rfl
    · rw [List.isPrefixOf_iff_prefix, ← List.cons_append]
      intro hp
      refine h.1 ?_
      rcases List.prefix_or_prefix_of_prefix hp (List.prefix_append (c :: a) (',' :: (w ++ r))) with h1 | h1
      · exact h1
      · obtain ⟨t, rfl⟩ := h1
        cases t with
        | nil => simp
        | cons d t =>
          rw [List.prefix_append_right_inj, List.cons_prefix_cons] at hp
          exact absurd (by simp [hp.1]) hw

theorem intercalate_append (a b : List (List Char)) (ha : a ≠ []) (hb : b ≠ []) :
    [','].intercalate (a ++ b) = [','].intercalate a ++ ',' :: [','].intercalate b := by
  induction a with
  | nil => exact absurd rfl ha
  | cons x a ih =>
    have e : ∀ l : List (List Char), l ≠ [] →
        [','].intercalate (x :: l) = x ++ ',' :: [','].intercalate l := by
      intro l hl
      cases l with
      | nil => exact absurd rfl hl
      | cons y l => simp [List.intercalate, List.intersperse]
    cases a with
    | nil => rw [List.singleton_append, e b hb]; simp [List.intercalate]
    | cons y a =>
      rw [List.cons_append, e _ (by simp), ih (by simp), e (y :: a) (by simp)]
      simp

/-- The items of a `cfg_str` value: the closing quote belongs to the last of them. -/
def cfgItems (p : List Char) : List (List Char) → List (List Char)
  | [] => [p ++ ['\'']]
  | q :: l => p :: cfgItems q l

theorem cfgItems_ne (p : List Char) (l : List (List Char)) : cfgItems p l ≠ [] := by
  cases l <;> simp [cfgItems]

theorem intercalate_cfgItems (p : List Char) (l : List (List Char)) :
    [','].intercalate (cfgItems p l) = [','].intercalate (p :: l) ++ ['\''] := by
  induction l generalizing p with
  | nil => simp [cfgItems, List.intercalate]
  | cons q l ih =>
    have h1 := intercalate_append [p] (cfgItems q l) (by simp) (cfgItems_ne q l)
    have h2 := intercalate_append [p] (q :: l) (by simp) (by simp)
    rw [List.singleton_append] at h1 h2
    rw [cfgItems, h1, ih q, h2]
    simp

theorem cfgItems_mem (p : List Char) (l : List (List Char)) (c : Char) (hc : c ≠ '\'')
    (hp : c ∉ p) (hl : ∀ q ∈ l, c ∉ q) : ∀ q ∈ cfgItems p l, c ∉ q := by
  induction l generalizing p with
  | nil => intro q hq; simp only [cfgItems, List.mem_singleton] at hq; subst hq; simp [hp, hc]
  | cons q l ih =>
    intro r hr
    rcases List.mem_cons.1 hr with rfl | hr
    · exact hp
    · exact ih q (hl q List.mem_cons_self) (fun r hr => hl r (List.mem_cons_of_mem _ hr)) r hr

/-- The items of plain settings. -/
theorem plain_items (kws : List (List Char × SweepVal))
    (hk : ∀ kv ∈ kws, Spec.PlainKey (stripSection kv.1) ∧ Spec.PlainVal kv.2) :
    ∀ p ∈ kws.map fun kv => stripSection kv.1 ++ '=' :: kv.2.repr, ',' ∉ p ∧ '/' ∉ p := by
  intro p hp
  obtain ⟨kv, hkv, rfl⟩ := List.mem_map.1 hp
  obtain ⟨h1, h2⟩ := hk kv hkv
  have hv : ',' ∉ kv.2.repr ∧ '/' ∉ kv.2.repr := by
    cases hv : kv.2 with
    | str s => rw [hv] at h2; simpa [SweepVal.repr] using ⟨h2.1, h2.2.2.2⟩
    | other r => rw [hv] at h2; exact ⟨h2.1, h2.2.2.2.1⟩
  simp [h1.1, h1.2.2, hv.1, hv.2]

theorem parseItems_plain (kws : List (List Char × SweepVal))
    (hk : ∀ kv ∈ kws, Spec.PlainKey (stripSection kv.1) ∧ Spec.PlainVal kv.2)
    (hcfg : ∀ kv ∈ kws, stripSection kv.1 ≠ "cfg_str".toList) :
    parseItems (kws.map fun kv => stripSection kv.1 ++ '=' :: kv.2.repr)
      = some (kws.map fun kv => (((stripSection kv.1).splitOn '.').getLastD [], Spec.shown kv.2)) := by
  have := parseItems_eq (kws.map fun kv => (stripSection kv.1, kv.2)) (by
    intro kv hkv
    obtain ⟨kv', hkv', rfl⟩ := List.mem_map.1 hkv
    exact ⟨(hk kv' hkv').1, (hk kv' hkv').2, hcfg kv' hkv'⟩)
  rw [List.map_map, List.map_map] at this
  exact this

/-- **C86 (`cfg_str`).** What is parsed from the folder of a job that also sweeps `cfg_str`: the settings
before and after it with their values, and the value of `cfg_str` without its first two characters (the
`r-` of the graph configurations) and cut at its first comma. -/
theorem experimentConfig_cfg (wu : List Char) (hwu : '_' ∉ wu) (pre post : List (List Char × SweepVal))
    (k : List Char) (hkey : stripSection k = "cfg_str".toList) (c₁ c₂ : Char) (m : List Char)
    (more : List (List Char))
    (hk : ∀ kv ∈ pre ++ post, Spec.PlainKey (stripSection kv.1) ∧ Spec.PlainVal kv.2)
    (hm : Spec.PlainVal (.str (c₁ :: c₂ :: m)))
    (hmore : ∀ q ∈ more, ',' ∉ q ∧ '=' ∉ q ∧ '/' ∉ q)
    (hcfg : ∀ kv ∈ pre ++ post, stripSection kv.1 ≠ "cfg_str".toList)
    (hfirst : ¬ "cfg_str".toList <:+:
      [','].intercalate (pre.map fun kv => stripSection kv.1 ++ '=' :: kv.2.repr)) :
    experimentConfig (folderName wu
        (pre ++ (k, .str ([','].intercalate ((c₁ :: c₂ :: m) :: more))) :: post))
      = some (((pre ++ post).map fun kv =>
            (((stripSection kv.1).splitOn '.').getLastD [], Spec.shown kv.2))
          ++ [("cfg_str".toList, m)] |>.foldl (fun d kv => dictSet d kv.1 kv.2) []) := by
  obtain ⟨hmc, hme, hmq, hms⟩ := hm
  set item := fun kv : List Char × SweepVal => stripSection kv.1 ++ '=' :: kv.2.repr with hitem
  set v := c₁ :: c₂ :: m with hv
  set mid := cfgItems ("cfg_str".toList ++ '=' :: '\'' :: v) more with hmid
  have hmidc : ∀ q ∈ mid, ',' ∉ q :=
    cfgItems_mem _ _ ',' (by decide) (by simp [hmc]) fun q hq => (hmore q hq).1
  have hmids : ∀ q ∈ mid, '/' ∉ q :=
    cfgItems_mem _ _ '/' (by decide) (by simp [hms]) fun q hq => (hmore q hq).2.2
  have hpre := plain_items pre fun kv h => hk kv (List.mem_append_left _ h)
  have hpost := plain_items post fun kv h => hk kv (List.mem_append_right _ h)
  have hintmid : [','].intercalate mid
      = item (k, .str ([','].intercalate (v :: more))) := by
    rw [hmid, intercalate_cfgItems]
    simp only [hitem, hkey, SweepVal.repr]
    cases more with
    | nil => simp [List.intercalate]
    | cons q l =>
      have h1 := intercalate_append ["cfg_str".toList ++ '=' :: '\'' :: v] (q :: l) (by simp) (by simp)
      have h2 := intercalate_append [v] (q :: l) (by simp) (by simp)
      rw [List.singleton_append] at h1 h2
      rw [h1, h2]
      simp [List.intercalate]
  -- the whole string
  have hall : [','].intercalate ((pre ++ (k, SweepVal.str ([','].intercalate (v :: more))) :: post).map item)
      = [','].intercalate (pre.map item ++ (mid ++ post.map item)) := by
    have key : [','].intercalate (item (k, SweepVal.str ([','].intercalate (v :: more))) :: post.map item)
        = [','].intercalate (mid ++ post.map item) := by
      by_cases hp : post.map item = []
      · rw [hp, List.append_nil, hintmid]; simp [List.intercalate]
      · have h1 := intercalate_append [item (k, SweepVal.str ([','].intercalate (v :: more)))]
          (post.map item) (by simp) hp
        rw [List.singleton_append] at h1
        rw [h1, intercalate_append mid _ (cfgItems_ne _ _) hp, hintmid]
        simp [List.intercalate]
    rw [List.map_append, List.map_cons]
    by_cases hp : pre.map item = []
    · rw [hp, List.nil_append, List.nil_append, key]
    · rw [intercalate_append _ _ hp (by simp), key,
        intercalate_append (pre.map item) _ hp (by simp [hmid, cfgItems_ne])]
  have hslash : '/' ∉ [','].intercalate (pre.map item ++ (mid ++ post.map item)) := by
    refine slash_notMem_intercalate _ fun p hp => ?_
    rcases List.mem_append.1 hp with h | h
    · exact (hpre p h).2
    · rcases List.mem_append.1 h with h | h
      · exact hmids p h
      · exact (hpost p h).2
  have haf : afterFirst '_' (folderName wu
        (pre ++ (k, SweepVal.str ([','].intercalate (v :: more))) :: post))
      = [','].intercalate (pre.map item ++ (mid ++ post.map item)) := by
    unfold folderName
    rw [afterFirst_eq _ _ hwu]
    have : (",".toList : List Char) = [','] := by decide
    rw [this]
    refine Eq.trans ?_ (map_slash_id _ hslash)
    rw [← hall]
  have hsplit : ([','].intercalate (pre.map item ++ (mid ++ post.map item))).splitOn ','
      = pre.map item ++ (mid ++ post.map item) := by
    refine List.splitOn_intercalate _ (fun p hp => ?_) (by simp [hmid, cfgItems_ne])
    rcases List.mem_append.1 hp with h | h
    · exact (hpre p h).1
    · rcases List.mem_append.1 h with h | h
      · exact hmidc p h
      · exact (hpost p h).1
  have hmidskip : parseItems mid = some [] := by
    refine parseItems_skip _ ?_
    rw [hmid]
    cases more with
    | nil =>
      intro p hp
      simp only [cfgItems, List.mem_singleton] at hp
      exact Or.inr ⟨'\'' :: v ++ ['\''], by simp, by simpa using hme, by simp [hp]⟩
    | cons q l =>
      intro p hp
      rcases List.mem_cons.1 hp with rfl | hp
      · exact Or.inr ⟨'\'' :: v, by simp, by simpa using hme, by simp⟩
      · exact Or.inl (cfgItems_mem q l '=' (by decide) (hmore q List.mem_cons_self).2.1
          (fun r hr => (hmore r (List.mem_cons_of_mem _ hr)).2.1) p hp)
  have hparse : parseItems (pre.map item ++ (mid ++ post.map item))
      = some ((pre ++ post).map fun kv =>
          (((stripSection kv.1).splitOn '.').getLastD [], Spec.shown kv.2)) := by
    rw [List.map_append]
    refine parseItems_append _ _ (parseItems_plain pre (fun kv h => hk kv (List.mem_append_left _ h))
      fun kv h => hcfg kv (List.mem_append_left _ h)) ?_
    have := parseItems_append mid _ hmidskip (parseItems_plain post
      (fun kv h => hk kv (List.mem_append_right _ h)) fun kv h => hcfg kv (List.mem_append_right _ h))
    rwa [List.nil_append] at this
  -- where `cfg_str` is found and what follows it
  obtain ⟨rest, hrest⟩ : ∃ rest, [','].intercalate (mid ++ post.map item)
      = "cfg_str".toList ++ ('=' :: '\'' :: v ++ rest) ∧ (rest.head? = some ',' ∨ rest.head? = some '\'') := by
    have hmid' : ∃ rest, [','].intercalate mid = "cfg_str".toList ++ ('=' :: '\'' :: v ++ rest) ∧
        (rest.head? = some ',' ∨ rest.head? = some '\'') := by
      rw [hmid]
      cases more with
      | nil => exact ⟨['\''], by simp [cfgItems, List.intercalate], Or.inr rfl⟩
      | cons q l =>
        refine ⟨',' :: [','].intercalate (cfgItems q l), ?_, Or.inl rfl⟩
        have h1 := intercalate_append ["cfg_str".toList ++ '=' :: '\'' :: v] (cfgItems q l) (by simp)
          (cfgItems_ne _ _)
        rw [List.singleton_append] at h1
        rw [cfgItems, h1]
        simp [List.intercalate]
    obtain ⟨rest, h1, h2⟩ := hmid'
    by_cases hp : post.map item = []
    · exact ⟨rest, by rw [hp, List.append_nil, h1], h2⟩
    · refine ⟨rest ++ ',' :: [','].intercalate (post.map item), ?_, ?_⟩
      · rw [intercalate_append mid _ (cfgItems_ne _ _) hp, h1]; simp
      · cases rest with
        | nil => simp at h2
        | cons a l => simpa using h2
  have hval : ((((('=' :: '\'' :: v ++ rest).drop 4).splitOn '\'').headD []).splitOn ',').headD [] = m := by
    have e : ('=' :: '\'' :: v ++ rest).drop 4 = m ++ rest := by simp [hv]
    rw [e]
    have hmq' : '\'' ∉ m := fun h => hmq (by simp [hv, h])
    have hmc' : ',' ∉ m := fun h => hmc (by simp [hv, h])
    cases hr : rest with
    | nil => rw [hr] at hrest; simp at hrest
    | cons a l =>
      rw [hr] at hrest
      rcases hrest.2 with h | h
      · obtain rfl : a = ',' := by simpa using h
        have hne : (l.splitOn '\'') ≠ [] := List.splitOn_ne_nil _ _
        have : (m ++ ',' :: l).splitOn '\''
            = (m ++ ',' :: (l.splitOn '\'').headD []) :: (l.splitOn '\'').tail := by
          have hgen : ∀ x : List Char, '\'' ∉ x → (x ++ l).splitOn '\''
              = (x ++ (l.splitOn '\'').headD []) :: (l.splitOn '\'').tail := by
            intro x
            induction x with
            | nil => intro _; cases hl : l.splitOn '\'' with
              | nil => exact absurd hl hne
              | cons a b => simp [hl]
            | cons d x ih =>
              intro hx
              have hd : d ≠ '\'' := fun e => hx (e ▸ List.mem_cons_self)
              rw [List.cons_append, List.splitOn_cons_eq_if_modifyHead, if_neg (by simpa using hd),
                ih fun h => hx (List.mem_cons_of_mem _ h)]
              simp
          have := hgen (m ++ [',']) (by simp [hmq'])
          simpa using this
        rw [this, List.headD_cons, List.splitOn_append_cons_self, List.splitOn_eq_singleton hmc']
        rfl
      · obtain rfl : a = '\'' := by simpa using h
        rw [List.splitOn_append_cons_self, List.splitOn_eq_singleton hmq']
        simp only [List.singleton_append, List.headD_cons]
        rw [List.splitOn_eq_singleton hmc']
        rfl
  obtain ⟨i, hfind, hdrop⟩ : ∃ i, findWord "cfg_str".toList
        ([','].intercalate (pre.map item ++ (mid ++ post.map item))) = some i ∧
      ([','].intercalate (pre.map item ++ (mid ++ post.map item))).drop (7 + i)
        = '=' :: '\'' :: v ++ rest := by
    by_cases hp : pre.map item = []
    · refine ⟨0, ?_, ?_⟩
      · rw [hp, List.nil_append, hrest.1]; rfl
      · rw [hp, List.nil_append, hrest.1]; rfl
    · rw [intercalate_append (pre.map item) _ hp (by simp [hmid, cfgItems_ne]), hrest.1]
      refine ⟨_, findWord_item _ _ (by decide) (by decide) _ hfirst, ?_⟩
      have : 7 + (([','].intercalate (pre.map item)).length + 1)
          = ([','].intercalate (pre.map item)).length + 8 := by omega
      rw [this, List.drop_length_add_append]
      rfl
  unfold experimentConfig
  simp only [haf, hsplit, hparse, hfind, Option.bind_eq_bind, Option.bind_some, Option.pure_def]
  rw [← List.drop_drop, hdrop, hval]

/-- **C86, what holds for jobs that sweep `cfg_str`.** The value of `cfg_str` is read back up to its first
comma and without its first two characters, and the other settings are read back as without it. -/
theorem folder_roundtrip_cfg_partial (wu : List Char) (hwu : '_' ∉ wu)
    (pre post : List (List Char × SweepVal))
    (k : List Char) (hkey : stripSection k = "cfg_str".toList) (c₁ c₂ : Char) (m : List Char)
    (more : List (List Char))
    (hk : ∀ kv ∈ pre ++ post, Spec.PlainKey (stripSection kv.1) ∧ Spec.PlainVal kv.2)
    (hm : Spec.PlainVal (.str (c₁ :: c₂ :: m)))
    (hmore : ∀ q ∈ more, ',' ∉ q ∧ '=' ∉ q ∧ '/' ∉ q)
    (hcfg : ∀ kv ∈ pre ++ post, stripSection kv.1 ≠ "cfg_str".toList)
    (hfirst : ¬ "cfg_str".toList <:+:
      [','].intercalate (pre.map fun kv => stripSection kv.1 ++ '=' :: kv.2.repr))
    (hnd : ("cfg_str".toList :: (pre ++ post).map fun kv =>
      ((stripSection kv.1).splitOn '.').getLastD []).Nodup) :
    ∃ d, experimentConfig (folderName wu
        (pre ++ (k, .str ([','].intercalate ((c₁ :: c₂ :: m) :: more))) :: post)) = some d ∧
      dictGet d "cfg_str".toList = some m ∧
      ∀ kv ∈ pre ++ post,
        dictGet d (((stripSection kv.1).splitOn '.').getLastD []) = some (Spec.shown kv.2) := by
  refine ⟨_, experimentConfig_cfg wu hwu pre post k hkey c₁ c₂ m more hk hm hmore hcfg hfirst, ?_⟩
  have hnd' : ((((pre ++ post).map fun kv =>
      (((stripSection kv.1).splitOn '.').getLastD [], Spec.shown kv.2)) ++ [("cfg_str".toList, m)]).map
        Prod.fst).Nodup := by
    rw [List.map_append, List.map_map, List.map_singleton]
    exact (List.perm_append_singleton _ _).nodup_iff.2 hnd
  refine ⟨foldl_dictSet_get _ [] hnd' ("cfg_str".toList, m) (by simp), fun kv hkv => ?_⟩
  exact foldl_dictSet_get _ [] hnd' (((stripSection kv.1).splitOn '.').getLastD [], Spec.shown kv.2)
    (List.mem_append_left _ (List.mem_map.2 ⟨kv, hkv, rfl⟩))

/-- A shipped job (`run_configs/co/normcut/inception.py`). -/
example : experimentConfig (folderName "3".toList
    [("config.experiment.batch_size".toList, .other "32".toList),
      ("model_config.cfg_str".toList, .str "r-INCEPTION".toList),
      ("sampler_config.name".toList, .str "dmala".toList)])
    = some [("batch_size".toList, "32".toList), ("name".toList, "dmala".toList),
        ("cfg_str".toList, "INCEPTION".toList)] := by
  have := experimentConfig_cfg "3".toList (by decide)
    [("config.experiment.batch_size".toList, .other "32".toList)]
    [("sampler_config.name".toList, .str "dmala".toList)] "model_config.cfg_str".toList (by decide)
    'r' '-' "INCEPTION".toList [] (by simp only [Spec.PlainKey, Spec.PlainVal, List.forall_mem_append, List.forall_mem_singleton]; decide)
    (by simp only [Spec.PlainVal]; decide) (by decide) (by decide)
    (by rw [← findWord_none]; decide)
  exact this

/-! ### Examples and refutations -/

/-- A job of a sampler sweep. -/
def exJob (shape : String) : List (List Char × SweepVal) :=
  [("config.experiment.chain_length".toList, .other "1000".toList),
    ("model_config.shape".toList, .str shape.toList),
    ("sampler_config.name".toList, .str "dlmc".toList),
    ("sampler_config.adaptive".toList, .other "False".toList)]

example : folderName "7".toList (exJob "20")
    = "7_chain_length=1000,shape='20',name='dlmc',adaptive=False".toList := by decide

example : experimentConfig (folderName "7".toList (exJob "20"))
    = some [("chain_length".toList, "1000".toList), ("shape".toList, "20".toList),
        ("name".toList, "dlmc".toList), ("adaptive".toList, "False".toList)] := by decide

/-- `cfg_str`: the part after `r-`, up to the first comma. -/
example : experimentConfig "3_cfg_str='r-ba-4-n-16-20,b-2',name='pas'".toList
    = some [("name".toList, "pas".toList), ("cfg_str".toList, "ba-4-n-16-20".toList)] := by decide

/-- **C86, refuted part.** Different jobs are read back as the same configuration: shapes that agree in the
first dimension, and values that differ in `/` and `-`; and of two settings with the same short name
only the last is read back. -/
theorem folder_collisions :
    experimentConfig (folderName "7".toList (exJob "(4,5)"))
        = experimentConfig (folderName "7".toList (exJob "(4,6)")) ∧
      folderName "7".toList (exJob "a/b") = folderName "7".toList (exJob "a-b") ∧
      experimentConfig (folderName "7".toList
          [("model_config.name".toList, .str "ising".toList), ("sampler_config.name".toList, .str "pas".toList)])
        = some [("name".toList, "pas".toList)] := by decide

end Discs
