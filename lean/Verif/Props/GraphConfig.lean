import Verif.Model.GraphConfig
import Verif.Props.GraphFiles
import Verif.Props.Loader

/-!
# Property C112: from a graph configuration to the batches of instances
-/

namespace Discs

open Spec

/-! ### Specification -/

/-- The graph types each problem is shipped with. -/
def shippedGraphTypes : List (String × String) :=
  [("maxcut", "ba"), ("maxcut", "er"), ("maxcut", "optsicom"), ("mis", "ertest"), ("mis", "er_density"),
   ("mis", "satlib"), ("maxclique", "rb"), ("maxclique", "twitter"), ("normcut", "nets"), ("normcut", "gap_rand")]

/-- The graph types whose configuration string must say which data set is meant. -/
def needsRandType : List String := ["ba", "er", "optsicom", "ertest", "er_density", "nets"]

/-- The instances in order, each with its index. -/
def indexed {α : Type*} (items : List α) : List (ℤ × α) := items.zipIdx.map fun q => ((q.2 : ℤ), q.1)

theorem share_one {α : Type*} (items : List α) : share 1 0 items = indexed items := by
  unfold share indexed
  rw [List.filter_eq_self.2]
  intro q _
  simp [Nat.mod_one]

/-! ### Which configurations exist -/

/-- **C112.** A graph configuration exists exactly for the ten shipped pairs of problem and graph type, and for six of
them only if the configuration string has an entry `r`. -/
theorem graphConfig_ok_iff (name graphType cfgStr : List Char) :
    (graphConfig name graphType cfgStr).isSome ↔
      (∃ p ∈ shippedGraphTypes, name = p.1.toList ∧ graphType = p.2.toList) ∧
      ((∃ g ∈ needsRandType, graphType = g.toList) → (cfgRand cfgStr).isSome) := by
  unfold graphConfig
  split_ifs with h1 h2 h3 h4 h5 h6 h7 h8 h9 h10 h11 h12 h13 h14
  all_goals
    simp only [shippedGraphTypes, needsRandType, List.mem_cons, List.not_mem_nil, or_false, exists_eq_or_imp,
      exists_eq_left, cfgBa, cfgEr, cfgOptsicom, cfgErTest, cfgErDensity, cfgNets, Option.bind_eq_bind,
      Option.isSome_some, Option.isSome_none, *]
  all_goals simp +decide [*]
  all_goals cases cfgRand cfgStr <;> rfl

/-- **C112.** The class that loads the data belongs to the problem, the configuration does not change the problem, and
no entry that the class reads is missing. -/
theorem graphConfig_loader {name graphType cfgStr : List Char} {c : GraphModelCfg}
    (h : graphConfig name graphType cfgStr = some c) :
    (c.name = none ∨ c.name = some name) ∧
    ∃ l, getGraphs graphType c.randType = some l ∧ l.problem = name ∧ ∀ gs, (l.sizes c gs).isSome := by
  have hb : ∀ {o : Option (List Char)} {f : List Char → GraphModelCfg} {c : GraphModelCfg},
      (o.bind fun r => some (f r)) = some c → ∃ r, c = f r := by
    intro o f c h
    cases o with
    | none => simp at h
    | some r => exact ⟨r, by simpa using h.symm⟩
  unfold graphConfig at h
  split_ifs at h with h1 h2 h3 h4 h5 h6 h7 h8 h9 h10 h11 h12 h13 h14
  all_goals
    simp only [cfgBa, cfgEr, cfgOptsicom, cfgErTest, cfgErDensity, cfgNets, Option.bind_eq_bind, Option.some.injEq] at h
  case _ =>
    obtain ⟨r, rfl⟩ := hb h
    exact ⟨Or.inl rfl, .randGraph, by simp +decide [getGraphs, h2], h1.symm, fun gs => by
      simp only [GraphLoader.sizes]; split_ifs <;> rfl⟩
  case _ =>
    obtain ⟨r, rfl⟩ := hb h
    exact ⟨Or.inl rfl, .randGraph, by simp +decide [getGraphs, h3], h1.symm, fun gs => by
      simp only [GraphLoader.sizes]; split_ifs <;> rfl⟩
  case _ =>
    obtain ⟨r, rfl⟩ := hb h
    refine ⟨Or.inl rfl, ?_⟩
    by_cases hr : r = "b".toList
    · exact ⟨.optsicomStatic, by simp +decide [getGraphs, h4, hr], h1.symm, fun gs => rfl⟩
    · exact ⟨.optsicomGen, by simp only [getGraphs, h4, if_true, hr, if_false], h1.symm, fun gs => rfl⟩
  case _ =>
    obtain ⟨r, rfl⟩ := hb h
    exact ⟨Or.inl rfl, .erTest, by simp +decide [getGraphs, h6], h5.symm, fun gs => by
      simp only [GraphLoader.sizes]; split_ifs <;> rfl⟩
  case _ =>
    obtain ⟨r, rfl⟩ := hb h
    exact ⟨Or.inl rfl, .erDensity, by simp +decide [getGraphs, h7], h5.symm, fun gs => rfl⟩
  case _ =>
    subst h
    exact ⟨Or.inl rfl, .satLib, by simp +decide [getGraphs, h8], h5.symm, fun gs => rfl⟩
  case _ =>
    subst h
    exact ⟨Or.inr (by simp [cfgRb, h9]), .rbTest, by simp +decide [getGraphs, h10], h9.symm, fun gs => rfl⟩
  case _ =>
    subst h
    exact ⟨Or.inl rfl, .twitter, by simp +decide [getGraphs, h11], h9.symm, fun gs => rfl⟩
  case _ =>
    obtain ⟨r, rfl⟩ := hb h
    exact ⟨Or.inl rfl, .nets, by simp +decide [getGraphs, h13], h12.symm, fun gs => rfl⟩
  case _ =>
    subst h
    exact ⟨Or.inl rfl, .gapRand, by simp +decide [getGraphs, h14], h12.symm, fun gs => rfl⟩

/-! ### What a run gets -/

theorem graphConfig_numModels {name graphType cfgStr : List Char} {c : GraphModelCfg}
    (h : graphConfig name graphType cfgStr = some c) : 0 < c.numModels := by
  have hb : ∀ {o : Option (List Char)} {f : List Char → GraphModelCfg} {c : GraphModelCfg},
      (o.bind fun r => some (f r)) = some c → ∃ r, c = f r := by
    intro o f c h
    cases o with
    | none => simp at h
    | some r => exact ⟨r, by simpa using h.symm⟩
  unfold graphConfig at h
  split_ifs at h with h1 h2 h3 h4 h5 h6 h7 h8 h9 h10 h11 h12 h13 h14
  all_goals
    simp only [cfgBa, cfgEr, cfgOptsicom, cfgErTest, cfgErDensity, cfgNets, Option.bind_eq_bind, Option.some.injEq] at h
  all_goals
    first
      | (obtain ⟨r, rfl⟩ := hb h; norm_num)
      | (subst h; norm_num [cfgSatlib, cfgRb, cfgTwitter, cfgGapRand])

theorem paddedLen_max (e m : ℕ) : paddedLen e m = max e m := by
  unfold paddedLen; split_ifs <;> omega

theorem arrayLens_of_ne {l : GraphLoader} (hl : l.problem ≠ "normcut".toList) (m : ℕ) (g : ℕ × ℕ) :
    l.arrayLens m g = [paddedLen g.2 m] := by
  cases l <;> first | rfl | exact absurd rfl hl

theorem dummy_of_ne {l : GraphLoader} (hl : l.problem ≠ "normcut".toList) (C : ℕ) : l.dummy C = (2, 1) := by
  cases l <;> first | rfl | exact absurd rfl hl

/-- **C112.** If the sizes of the loader bound the stored graphs, the run gets every graph once, with its own index, in
batches of `num_models`, filled up with dummies; all arrays of a batch have one length. -/
theorem graphRun_ok {name graphType cfgStr : List Char} {c : GraphModelCfg} {l : GraphLoader} {s : ℕ × ℕ × ℕ}
    {gs : List (ℕ × ℕ)} (hc : graphConfig name graphType cfgStr = some c)
    (hl : getGraphs graphType c.randType = some l) (hs : l.sizes c gs = some s) (hn : name ≠ "normcut".toList)
    (hlen : gs.length ≤ s.2.2) (hedges : ∀ g ∈ gs, g.2 ≤ s.2.1) (hone : 1 ≤ s.2.1) :
    ∃ d, graphRun name graphType cfgStr gs = some d ∧ d.loader = l ∧ d.maxNodes = s.1 ∧ d.maxEdges = s.2.1 ∧
      d.batches.length = (s.2.2 + c.numModels - 1) / c.numModels ∧ (∀ b ∈ d.batches, b.length = c.numModels) ∧
      ∃ k, d.batches.flatten = indexed gs ++ List.replicate k ((-1 : ℤ), (2, 1)) := by
  obtain ⟨-, l', hl', hp, -⟩ := graphConfig_loader hc
  obtain rfl : l' = l := Option.some.inj (hl'.symm.trans hl)
  have hne : l'.problem ≠ "normcut".toList := by rw [hp]; exact hn
  obtain ⟨bs, h1, h2, h3, k, h4⟩ := graph_batches (P := 1) (p := 0) one_pos (graphConfig_numModels hc)
    (l'.dummy c.numCategories) gs hlen
  rw [one_mul] at h1 h2
  rw [share_one, dummy_of_ne hne] at h4
  rw [dummy_of_ne hne] at h1
  have hfit : ∀ b ∈ bs, ∀ g ∈ b.map (·.2), g.2 ≤ s.2.1 := by
    intro b hb g hg
    obtain ⟨q, hq, rfl⟩ := List.mem_map.1 hg
    have : q ∈ bs.flatten := List.mem_flatten.2 ⟨b, hb, hq⟩
    rw [h4, List.mem_append] at this
    rcases this with h | h
    · obtain ⟨r, hr, rfl⟩ := List.mem_map.1 h
      exact hedges _ (List.fst_mem_of_mem_zipIdx hr)
    · rw [(List.mem_replicate.1 h).2]; exact hone
  refine ⟨⟨l', s.1, s.2.1, bs⟩, ?_, rfl, rfl, rfl, h2, h3, k, h4⟩
  simp only [graphRun, getDatagen, hc, hl, hs, Option.bind_eq_bind, Option.bind_some, dummy_of_ne hne, h1]
  rw [if_pos]
  rw [List.all_eq_true]
  intro b hb
  unfold GraphLoader.stacks
  rw [decide_eq_true_iff]
  intro g hg g' hg'
  rw [arrayLens_of_ne hne, arrayLens_of_ne hne, paddedLen_max, paddedLen_max, max_eq_right (hfit b hb g hg),
    max_eq_right (hfit b hb g' hg')]

theorem scanSizes_le (gs : List (ℕ × ℕ)) : ∀ g ∈ gs, g.2 ≤ (scanSizes gs).2.1 := by
  intro g hg
  have h := ((scan_uniform gs).2 g hg).2
  rw [paddedLen_max] at h
  omega

/-- **C112.** Without declared sizes (all data sets but those named in the configurations) every set of graphs with at
least one edge runs, whatever its size. -/
theorem graphRun_scanned {name graphType cfgStr : List Char} {c : GraphModelCfg} {gs : List (ℕ × ℕ)}
    (hc : graphConfig name graphType cfgStr = some c) (hn : name ≠ "normcut".toList)
    (h0 : c.maxNodes = 0 ∨ c.maxEdges = 0 ∨ c.numInstances = some 0) (he : ∃ g ∈ gs, 1 ≤ g.2) :
    ∃ d, graphRun name graphType cfgStr gs = some d ∧ (∀ g ∈ gs, g.1 ≤ d.maxNodes ∧ g.2 ≤ d.maxEdges) ∧
      (∀ b ∈ d.batches, b.length = c.numModels) ∧
      ∃ k, d.batches.flatten = indexed gs ++ List.replicate k ((-1 : ℤ), (2, 1)) := by
  obtain ⟨-, l, hl, hp, hsz⟩ := graphConfig_loader hc
  have hne : l.problem ≠ "normcut".toList := by rw [hp]; exact hn
  have hs : l.sizes c gs = some (scanSizes gs) := by
    have := hsz gs
    cases l
    case nets => exact absurd rfl hne
    case gapRand => exact absurd rfl hne
    all_goals
      simp only [GraphLoader.sizes] at this ⊢
      try
        split_ifs with hpos
        · rcases h0 with h | h | h
          · omega
          · omega
          · rw [h]; simp [loaderSizes]
        · rfl
  obtain ⟨g, hg, hg1⟩ := he
  obtain ⟨d, h1, -, h2, h3, -, h4, h5⟩ := graphRun_ok hc hl hs hn (scan_uniform gs).1.ge (scanSizes_le gs)
    (hg1.trans (scanSizes_le gs g hg))
  refine ⟨d, h1, fun g hg => ?_, h4, h5⟩
  rw [h2, h3]
  exact ⟨((scan_uniform gs).2 g hg).1, scanSizes_le gs g hg⟩

theorem one_batch {α : Type*} {M n : ℕ} (d : α) {gs : List α} (hlen : gs.length ≤ n) (h0 : 0 < n) (hM : n ≤ M) :
    getIterator 1 0 M n d gs = some [indexed gs ++ List.replicate (M - gs.length) ((-1 : ℤ), d)] := by
  obtain ⟨bs, h1, h2, h3, k, h4⟩ := graph_batches (P := 1) (p := 0) (B := M) one_pos (by omega) d gs hlen
  rw [one_mul] at h1 h2
  have hb : bs.length = 1 := by
    rw [h2]
    exact Nat.div_eq_of_lt_le (by omega) (by omega)
  obtain ⟨b, rfl⟩ := List.length_eq_one_iff.1 hb
  have hbl := h3 b (List.mem_singleton.2 rfl)
  rw [List.flatten_singleton, share_one] at h4
  rw [h1, h4]
  have : k = M - gs.length := by
    have := congrArg List.length h4
    rw [hbl, List.length_append, List.length_replicate] at this
    simp only [indexed, List.length_map, List.length_zipIdx] at this
    omega
  rw [this]

/-- Declared sizes are used as they are. -/
theorem declared_sizes {name graphType cfgStr : List Char} {c : GraphModelCfg} {n : ℕ}
    (hc : graphConfig name graphType cfgStr = some c) (hn : name ≠ "normcut".toList) (h1 : 0 < c.maxNodes)
    (h2 : 0 < c.maxEdges) (h3 : c.numInstances = some n) (h4 : 0 < n) (gs : List (ℕ × ℕ)) :
    ∃ l, getGraphs graphType c.randType = some l ∧ l.sizes c gs = some (c.maxNodes, c.maxEdges, n) := by
  obtain ⟨-, l, hl, hp, hsz⟩ := graphConfig_loader hc
  refine ⟨l, hl, ?_⟩
  have key : l = .randGraph ∨ l = .erTest ∨ l = .satLib ∨ l = .rbTest ∨ l = .twitter := by
    have hb : ∀ {o : Option (List Char)} {f : List Char → GraphModelCfg} {c : GraphModelCfg},
        (o.bind fun r => some (f r)) = some c → ∃ r, c = f r := by
      intro o f c h
      cases o with
      | none => simp at h
      | some r => exact ⟨r, by simpa using h.symm⟩
    unfold graphConfig at hc
    split_ifs at hc with e1 e2 e3 e4 e5 e6 e7 e8 e9 e10 e11
    · simp +decide [getGraphs, e2] at hl; simp [← hl]
    · simp +decide [getGraphs, e3] at hl; simp [← hl]
    · obtain ⟨r, rfl⟩ := hb hc; simp at h1
    · simp +decide [getGraphs, e6] at hl; simp [← hl]
    · obtain ⟨r, rfl⟩ := hb hc; simp at h1
    · simp +decide [getGraphs, e8] at hl; simp [← hl]
    · simp +decide [getGraphs, e10] at hl; simp [← hl]
    · simp +decide [getGraphs, e11] at hl; simp [← hl]
  have h5 : loaderSizes (c.maxNodes, c.maxEdges, n) gs = (c.maxNodes, c.maxEdges, n) := by
    unfold loaderSizes
    rw [if_pos ⟨h1, h2, h4⟩]
  rcases key with rfl | rfl | rfl | rfl | rfl <;>
    simp only [GraphLoader.sizes, gt_iff_lt, h1, h2, and_self, if_true, h3, Option.map_some, h5]

/-- **C112.** With declared sizes and fewer graphs than `num_models` the run starts exactly if no graph has more edges
than declared.  Declared numbers of nodes are not checked at all. -/
theorem graphRun_declared_iff {name graphType cfgStr : List Char} {c : GraphModelCfg} {n : ℕ} {gs : List (ℕ × ℕ)}
    (hc : graphConfig name graphType cfgStr = some c) (hn : name ≠ "normcut".toList) (h1 : 0 < c.maxNodes)
    (h2 : 0 < c.maxEdges) (h3 : c.numInstances = some n) (h4 : 0 < n) (hlen : gs.length ≤ n) (hM : n ≤ c.numModels)
    (hlt : gs.length < c.numModels) :
    (graphRun name graphType cfgStr gs).isSome ↔ ∀ g ∈ gs, g.2 ≤ c.maxEdges := by
  obtain ⟨l, hl, hs⟩ := declared_sizes hc hn h1 h2 h3 h4 gs
  obtain ⟨-, l', hl', hp, -⟩ := graphConfig_loader hc
  obtain rfl : l' = l := Option.some.inj (hl'.symm.trans hl)
  have hne : l'.problem ≠ "normcut".toList := by rw [hp]; exact hn
  refine ⟨fun h => ?_, fun h => ?_⟩
  · simp only [graphRun, getDatagen, hc, hl, hs, Option.bind_eq_bind, Option.bind_some, dummy_of_ne hne,
      one_batch (2, 1) hlen h4 hM, List.all_cons, List.all_nil, Bool.and_true] at h
    split_ifs at h with hst
    · unfold GraphLoader.stacks at hst
      rw [decide_eq_true_iff] at hst
      intro g hg
      have hd : ((2, 1) : ℕ × ℕ) ∈ (indexed gs ++ List.replicate (c.numModels - gs.length) ((-1 : ℤ), (2, 1))).map
          Prod.snd := List.mem_map.2 ⟨(-1, (2, 1)), List.mem_append_right _
            (List.mem_replicate.2 ⟨by omega, rfl⟩), rfl⟩
      have hg' : g ∈ (indexed gs ++ List.replicate (c.numModels - gs.length) ((-1 : ℤ), (2, 1))).map Prod.snd := by
        obtain ⟨i, hi, rfl⟩ := List.getElem_of_mem hg
        refine List.mem_map.2 ⟨((i : ℤ), gs[i]), List.mem_append_left _ (List.mem_map.2 ⟨(gs[i], i), ?_, rfl⟩), rfl⟩
        exact List.mk_mem_zipIdx_iff_getElem?.2 (List.getElem?_eq_getElem hi)
      have := hst g hg' _ hd
      rw [arrayLens_of_ne hne, arrayLens_of_ne hne, paddedLen_max, paddedLen_max, List.cons.injEq] at this
      omega
    · simp at h
  · obtain ⟨d, hd, -⟩ := graphRun_ok hc hl hs hn hlen h h2
    rw [hd]; rfl

/-- **C112.** The number of nodes in the configuration is not compared with the data: a run whose graphs have more nodes
than `max_num_nodes` starts, with samples that are too short for them. -/
theorem declared_nodes_unchecked (cfgStr : List Char) (n : ℕ) :
    ∃ d, graphRun "maxclique".toList "twitter".toList cfgStr [(n, 1)] = some d ∧ d.maxNodes = 247 := by
  have hc : graphConfig "maxclique".toList "twitter".toList cfgStr = some cfgTwitter := by
    simp +decide [graphConfig]
  obtain ⟨l, hl, hs⟩ := declared_sizes (n := 196) hc (by decide) (by decide) (by decide) rfl (by decide) [(n, 1)]
  obtain ⟨d, h1, -, h2, -⟩ := graphRun_ok hc hl hs (by decide) (by simp) (by simp [cfgTwitter]) (by decide)
  exact ⟨d, h1, h2⟩

/-- Data sets whose sizes the configuration declares: problem, graph type, `rand_type` (if any), `num_models`, most nodes,
most edges, instances. -/
def Spec.declaredSets : List (String × String × Option String × ℕ × ℕ × ℕ × ℕ) :=
  [("mis", "ertest", some "800", 128, 800, 47885, 128), ("mis", "ertest", some "10k", 128, 10915, 1190799, 16),
   ("mis", "satlib", none, 512, 1347, 5978, 500), ("maxclique", "rb", none, 512, 475, 90585, 500),
   ("maxclique", "twitter", none, 200, 247, 12174, 196)]

/-- **C112 (declared sizes).**  The data sets for independent sets and cliques with declared sizes fill one batch; if there
is room in it for a dummy the run goes through exactly if no graph has more edges than declared. -/
theorem declared_run {name graphType : String} {r : Option String} {M V E n : ℕ}
    (hp : (name, graphType, r, M, V, E, n) ∈ Spec.declaredSets) {cfgStr : List Char}
    (hr : ∀ r' ∈ r, cfgRand cfgStr = some r'.toList) {gs : List (ℕ × ℕ)} (hlen : gs.length ≤ n) :
    ((∀ g ∈ gs, g.2 ≤ E) → ∃ d, graphRun name.toList graphType.toList cfgStr gs = some d ∧ d.maxNodes = V ∧
      d.maxEdges = E ∧ d.batches = [indexed gs ++ List.replicate (M - gs.length) ((-1 : ℤ), (2, 1))]) ∧
    (gs.length < M → (∃ g ∈ gs, E < g.2) → graphRun name.toList graphType.toList cfgStr gs = none) := by
  obtain ⟨c, hc, rfl, rfl, rfl, hi⟩ : ∃ c, graphConfig name.toList graphType.toList cfgStr = some c ∧ c.numModels = M ∧
      c.maxNodes = V ∧ c.maxEdges = E ∧ c.numInstances = some n := by
    simp only [Spec.declaredSets, List.mem_cons, List.not_mem_nil, or_false, Prod.mk.injEq] at hp
    rcases hp with ⟨rfl, rfl, rfl, rfl, rfl, rfl, rfl⟩ | ⟨rfl, rfl, rfl, rfl, rfl, rfl, rfl⟩ |
      ⟨rfl, rfl, rfl, rfl, rfl, rfl, rfl⟩ | ⟨rfl, rfl, rfl, rfl, rfl, rfl, rfl⟩ | ⟨rfl, rfl, rfl, rfl, rfl, rfl, rfl⟩
    · have := hr _ rfl
      exact ⟨⟨none, 128, 800, 47885, some 128, 2, "800".toList, none, none⟩, by
        simp +decide [graphConfig, cfgErTest, this], rfl, rfl, rfl, rfl⟩
    · have := hr _ rfl
      exact ⟨⟨none, 128, 10915, 1190799, some 16, 2, "10k".toList, none, none⟩, by
        simp +decide [graphConfig, cfgErTest, this], rfl, rfl, rfl, rfl⟩
    · exact ⟨cfgSatlib, by simp +decide [graphConfig], rfl, rfl, rfl, rfl⟩
    · exact ⟨cfgRb, by simp +decide [graphConfig], rfl, rfl, rfl, rfl⟩
    · exact ⟨cfgTwitter, by simp +decide [graphConfig], rfl, rfl, rfl, rfl⟩
  have hnum : name.toList ≠ "normcut".toList ∧ 0 < c.maxNodes ∧ 0 < c.maxEdges ∧ 0 < n ∧ n ≤ c.numModels := by
    simp only [Spec.declaredSets, List.mem_cons, List.not_mem_nil, or_false, Prod.mk.injEq] at hp
    rcases hp with ⟨h1, -, -, h2, h3, h4, h5⟩ | ⟨h1, -, -, h2, h3, h4, h5⟩ | ⟨h1, -, -, h2, h3, h4, h5⟩ |
      ⟨h1, -, -, h2, h3, h4, h5⟩ | ⟨h1, -, -, h2, h3, h4, h5⟩ <;> rw [h1, h2, h3, h4, h5] <;> decide
  obtain ⟨hn, h1, h2, h4, hM⟩ := hnum
  obtain ⟨l, hl, hs⟩ := declared_sizes hc hn h1 h2 hi h4 gs
  refine ⟨fun he => ?_, fun hlt hbad => ?_⟩
  · obtain ⟨d, hd, -, hV, hE, hb, hbl, k, hflat⟩ := graphRun_ok hc hl hs hn hlen he h2
    refine ⟨d, hd, hV, hE, ?_⟩
    have hone : d.batches.length = 1 := by
      rw [hb]
      dsimp only
      exact Nat.div_eq_of_lt_le (by omega) (by omega)
    obtain ⟨b, hb1⟩ := List.length_eq_one_iff.1 hone
    rw [hb1] at hbl hflat ⊢
    have hbl' := hbl b (List.mem_singleton.2 rfl)
    rw [List.flatten_singleton] at hflat
    have hk : k = c.numModels - gs.length := by
      have := congrArg List.length hflat
      rw [hbl', List.length_append, List.length_replicate] at this
      have hi : (indexed gs).length = gs.length := by simp [indexed]
      omega
    rw [hflat, hk]
  · obtain ⟨g, hg, hlt'⟩ := hbad
    have := graphRun_declared_iff hc hn h1 h2 hi h4 hlen hM hlt
    by_contra hne
    exact absurd (this.1 (Option.ne_none_iff_isSome.1 hne) g hg) (by omega)
/-- The hypotheses of `declared_run`: three small graphs for `ertest`. -/
example : ("mis", "ertest", some "800", 128, 800, 47885, 128) ∈ Spec.declaredSets ∧ cfgRand "r-800".toList = some "800".toList ∧
    [(3, 2), (4, 4), (800, 47885)].length ≤ 128 := by decide

/-! ### Random graphs for maximum cut -/

/-- The three ranges of sizes that `maxcut/ba.py` knows, with their declared number of edges. -/
def baRanges : List (String × ℕ × ℕ × ℕ) :=
  [("256-300", 256, 300, 1184), ("512-600", 512, 600, 2384), ("1024-1100", 1024, 1100, 4384)]

/-- Numbers of nodes and edges of a Barabási–Albert graph with `n` nodes and `m` edges per new node. -/
def baGraph (m n : ℕ) : ℕ × ℕ := (n, m * (n - m))

theorem ba_config {cfgStr r : List Char} (hr : cfgRand cfgStr = some r) {p : String × ℕ × ℕ × ℕ} (hp : p ∈ baRanges)
    (hs : p.1.toList.isSuffixOf r) :
    graphConfig "maxcut".toList "ba".toList cfgStr =
      some ⟨none, 1024, p.2.2.1, p.2.2.2, some 1000, 2, r, none, none⟩ := by
  have hdis : ∀ a b : String, a ≠ b → (a, b) ∈ [("256-300", "512-600"), ("256-300", "1024-1100"),
      ("512-600", "1024-1100"), ("512-600", "256-300"), ("1024-1100", "256-300"), ("1024-1100", "512-600")] →
      a.toList.isSuffixOf r → ¬ b.toList.isSuffixOf r := by
    intro a b _ hab h1 h2
    rw [List.isSuffixOf_iff_suffix] at h1 h2
    rcases List.suffix_or_suffix_of_suffix h1 h2 with h | h <;>
      (simp only [List.mem_cons, List.not_mem_nil, or_false, Prod.mk.injEq] at hab
       rcases hab with ⟨rfl, rfl⟩ | ⟨rfl, rfl⟩ | ⟨rfl, rfl⟩ | ⟨rfl, rfl⟩ | ⟨rfl, rfl⟩ | ⟨rfl, rfl⟩ <;>
        exact absurd h (by decide))
  simp only [graphConfig, if_true, cfgBa, hr, Option.bind_eq_bind, Option.bind_some, sizesBySuffix]
  simp only [baRanges, List.mem_cons, List.not_mem_nil, or_false] at hp
  rcases hp with rfl | rfl | rfl
  · rw [if_neg (hdis "256-300" "1024-1100" (by decide) (by simp) hs),
      if_neg (hdis "256-300" "512-600" (by decide) (by simp) hs), if_pos hs]
  · rw [if_neg (hdis "512-600" "1024-1100" (by decide) (by simp) hs), if_pos hs]
  · rw [if_pos hs]

/-- **C112 (Barabási–Albert graphs).** The configuration looks only at the end of `rand_type`, not at the number of
edges per node that comes before it: its sizes are those of four edges per node, and a data set with more does not
start. -/
theorem ba_run_iff {cfgStr r : List Char} (hr : cfgRand cfgStr = some r) {p : String × ℕ × ℕ × ℕ} (hp : p ∈ baRanges)
    (hs : p.1.toList.isSuffixOf r) {m : ℕ} (hm : m < p.2.1) :
    (∀ ns : List ℕ, ns.length ≤ 1000 → (∀ n ∈ ns, p.2.1 ≤ n ∧ n ≤ p.2.2.1) →
      (graphRun "maxcut".toList "ba".toList cfgStr (ns.map (baGraph m))).isSome) ↔ m ≤ 4 := by
  have hc := ba_config hr hp hs
  have hpos : 0 < p.2.2.1 ∧ 0 < p.2.2.2 := by
    simp only [baRanges, List.mem_cons, List.not_mem_nil, or_false] at hp
    rcases hp with rfl | rfl | rfl <;> simp
  have hiff : ∀ ns : List ℕ, ns.length ≤ 1000 →
      ((graphRun "maxcut".toList "ba".toList cfgStr (ns.map (baGraph m))).isSome ↔
        ∀ g ∈ ns.map (baGraph m), g.2 ≤ p.2.2.2) := fun ns hns =>
    graphRun_declared_iff (n := 1000) hc (by decide) hpos.1 hpos.2 rfl (by decide) (by simpa using hns) (by simp)
      (by simp; omega)
  have hmul : ∀ n, n ≤ p.2.2.1 → m ≤ 4 → m * (n - m) ≤ p.2.2.2 := by
    intro n hn hm4
    simp only [baRanges, List.mem_cons, List.not_mem_nil, or_false] at hp
    rcases hp with rfl | rfl | rfl <;> simp only at hn ⊢ <;> interval_cases m <;> omega
  constructor
  · intro h
    by_contra hm4
    have := (hiff [p.2.2.1] (by simp)).1 (h [p.2.2.1] (by simp) (by
      simp only [baRanges, List.mem_cons, List.not_mem_nil, or_false] at hp
      rcases hp with rfl | rfl | rfl <;> simp)) (baGraph m p.2.2.1) (by simp)
    simp only [baGraph] at this
    obtain ⟨k, rfl⟩ : ∃ k, m = 5 + k := ⟨m - 5, by omega⟩
    simp only [baRanges, List.mem_cons, List.not_mem_nil, or_false] at hp
    rcases hp with rfl | rfl | rfl <;> simp only at this hm
    · obtain ⟨j, hj⟩ : ∃ j, 300 - (5 + k) = 40 + j := ⟨300 - (5 + k) - 40, by omega⟩
      rw [hj] at this
      have : k + j = 255 := by omega
      nlinarith
    · obtain ⟨j, hj⟩ : ∃ j, 600 - (5 + k) = 80 + j := ⟨600 - (5 + k) - 80, by omega⟩
      rw [hj] at this
      have : k + j = 515 := by omega
      nlinarith
    · obtain ⟨j, hj⟩ : ∃ j, 1100 - (5 + k) = 70 + j := ⟨1100 - (5 + k) - 70, by omega⟩
      rw [hj] at this
      have : k + j = 1025 := by omega
      nlinarith
  · intro hm4 ns hns hr
    rw [hiff ns hns]
    intro g hg
    obtain ⟨n, hn, rfl⟩ := List.mem_map.1 hg
    exact hmul n (hr n hn).2 hm4

/-! ### Normalised cuts -/

/-- **C112 (normalised cut, random graphs).** The degrees of the nodes are not padded.  With fewer than five graphs the
batch is filled with a dummy of three nodes, so the run starts only if all graphs have three nodes, too; with five it
starts exactly if they have equally many nodes and edge arrays. -/
theorem gap_run_iff (cfgStr : List Char) {gs : List (ℕ × ℕ)} (h5 : gs.length ≤ 5) :
    (graphRun "normcut".toList "gap_rand".toList cfgStr gs).isSome ↔
      if gs.length < 5 then ∀ g ∈ gs, g.1 = 3 ∧ g.2 ≤ 50369
      else ∀ g ∈ gs, ∀ g' ∈ gs, g.1 = g'.1 ∧ max g.2 50369 = max g'.2 50369 := by
  have hc : graphConfig "normcut".toList "gap_rand".toList cfgStr = some cfgGapRand := by
    simp +decide [graphConfig]
  have hl : getGraphs "gap_rand".toList cfgGapRand.randType = some .gapRand := by decide
  have hs : GraphLoader.gapRand.sizes cfgGapRand gs = some (1000, 50369, 5) := rfl
  have hd : GraphLoader.gapRand.dummy cfgGapRand.numCategories = (3, 0) := rfl
  have hM : cfgGapRand.numModels = 5 := rfl
  have hmem : ∀ g : ℕ × ℕ, g ∈ (indexed gs ++ List.replicate (5 - gs.length) ((-1 : ℤ), ((3, 0) : ℕ × ℕ))).map Prod.snd ↔
      g ∈ gs ∨ gs.length < 5 ∧ g = (3, 0) := by
    intro g
    have e : (indexed gs).map Prod.snd = gs := by
      unfold indexed
      rw [List.map_map]
      exact List.zipIdx_map_fst 0 gs
    rw [List.map_append, List.mem_append, e, List.map_replicate, List.mem_replicate]
    constructor <;> rintro (h | h) <;> first | exact Or.inl h | exact Or.inr ⟨by omega, h.2⟩
  simp only [graphRun, getDatagen, hc, hl, hs, hd, hM, Option.bind_eq_bind, Option.bind_some,
    one_batch ((3, 0) : ℕ × ℕ) h5 (by norm_num) le_rfl, List.all_cons, List.all_nil, Bool.and_true]
  have hst : GraphLoader.gapRand.stacks 50369
      ((indexed gs ++ List.replicate (5 - gs.length) ((-1 : ℤ), ((3, 0) : ℕ × ℕ))).map Prod.snd) = true ↔
      ∀ g, (g ∈ gs ∨ gs.length < 5 ∧ g = (3, 0)) → ∀ g', (g' ∈ gs ∨ gs.length < 5 ∧ g' = (3, 0)) →
        g.1 = g'.1 ∧ max g.2 50369 = max g'.2 50369 := by
    unfold GraphLoader.stacks
    rw [decide_eq_true_iff]
    simp only [hmem, GraphLoader.arrayLens, paddedLen_max, List.cons.injEq, and_true]
    exact ⟨fun h g hg g' hg' => ⟨(h g hg g' hg').2, (h g hg g' hg').1⟩,
      fun h g hg g' hg' => ⟨(h g hg g' hg').2, (h g hg g' hg').1⟩⟩
  have hsplit : ∀ b : Bool, ∀ d : GraphData, (if b then some d else none).isSome = b := by
    intro b d; cases b <;> rfl
  rw [hsplit, hst]
  split_ifs with hlt
  · constructor
    · intro h g hg
      have := h g (Or.inl hg) (3, 0) (Or.inr ⟨hlt, rfl⟩)
      simp only [Nat.zero_max] at this
      omega
    · intro h g hg g' hg'
      have h3 : ∀ g, (g ∈ gs ∨ gs.length < 5 ∧ g = (3, 0)) → g.1 = 3 ∧ g.2 ≤ 50369 := by
        rintro g (hg | ⟨-, rfl⟩)
        · exact h g hg
        · simp
      have a := h3 g hg
      have b := h3 g' hg'
      omega
  · constructor
    · intro h g hg g' hg'
      exact h g (Or.inl hg) g' (Or.inl hg')
    · rintro h g (hg | hg) g' (hg' | hg')
      · exact h g hg g' hg'
      all_goals omega

/-- **C112 (normalised cut, computation graphs).** The single graph runs, with its own sizes. -/
theorem nets_run {cfgStr r : List Char} (hr : cfgRand cfgStr = some r) (g : ℕ × ℕ) :
    graphRun "normcut".toList "nets".toList cfgStr [g] = some ⟨.nets, g.1, g.2, [[(0, g)]]⟩ := by
  have hc : graphConfig "normcut".toList "nets".toList cfgStr =
      some ⟨none, 1, 0, 0, some 0, 3, r, some 0.0005, some 0.03⟩ := by
    simp +decide [graphConfig, cfgNets, hr]
  have hl : getGraphs "nets".toList r = some .nets := by simp +decide [getGraphs]
  simp only [graphRun, getDatagen, hc, hl, Option.bind_eq_bind, Option.bind_some]
  simp [GraphLoader.sizes, getIterator, scanBatches, padBatches, totalBatches, GraphLoader.stacks]

/-! ### Examples -/

/-- The default configuration of maximum cut names a data set without declared sizes. -/
example : graphConfig "maxcut".toList "ba".toList "r-ba-4-n-16-20".toList =
    some ⟨none, 1024, 0, 0, some 1000, 2, "ba-4-n-16-20".toList, none, none⟩ := by decide

/-- Data sets with four and with five edges per node get the same sizes. -/
example : cfgRand "r-ba-5-n-256-300".toList = some "ba-5-n-256-300".toList ∧
    (graphConfig "maxcut".toList "ba".toList "r-ba-5-n-256-300".toList).map (·.maxEdges) = some 1184 ∧
    (graphConfig "maxcut".toList "ba".toList "r-ba-4-n-256-300".toList).map (·.maxEdges) = some 1184 := by decide

/-- No such pair, and no entry `r`. -/
example : graphConfig "mis".toList "ba".toList "r-1".toList = none ∧
    graphConfig "mis".toList "ertest".toList "s-800".toList = none := by decide

end Discs
