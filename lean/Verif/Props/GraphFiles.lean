import Verif.Model.GraphFiles
import Verif.Props.Loader
import Mathlib.Data.List.Sort
import Mathlib.Data.Finset.Max

/-!
# C105: the graph loaders
-/

namespace Discs

/-! ### Which class -/

/-- Graph types given by a prefix, with the class made for them. -/
def prefixTypes : List (List Char × GraphLoader) :=
  [("ba".toList, .randGraph), ("er".toList, .randGraph), ("ertest".toList, .erTest), ("er_density".toList, .erDensity),
    ("satlib".toList, .satLib)]

/-- Graph types given by their full name. -/
def exactTypes : List (List Char × GraphLoader) :=
  [("rb".toList, .rbTest), ("twitter".toList, .twitter), ("nets".toList, .nets), ("gap_rand".toList, .gapRand)]

theorem prefix_er {s : List Char} : ("ertest".toList <+: s ∨ "er_density".toList <+: s) → "er".toList <+: s := by
  rintro (h | h) <;> exact (by decide : "er".toList <+: _).trans h

theorem prefix_ne {p q s : List Char} (hp : p <+: s) (hq : q <+: s) : p <+: q ∨ q <+: p :=
  List.prefix_or_prefix_of_prefix hp hq

/-- C105 (class by prefix): the longest registered prefix of the graph type decides, whatever the order of the tests. -/
theorem getGraphs_longest {s : List Char} (r : List Char) {p : List Char} {L : GraphLoader} (hpL : (p, L) ∈ prefixTypes)
    (hp : p <+: s) (hmax : ∀ q M, (q, M) ∈ prefixTypes → q <+: s → q.length ≤ p.length) : getGraphs s r = some L := by
  have hno : ∀ q, q <+: s → ¬ (p <+: q ∨ q <+: p) → False := fun q hq h => h (prefix_ne hp hq)
  have hopt : s ≠ "optsicom".toList := by
    rintro rfl
    simp only [prefixTypes, List.mem_cons, Prod.mk.injEq, List.not_mem_nil, or_false] at hpL
    rcases hpL with ⟨rfl, -⟩ | ⟨rfl, -⟩ | ⟨rfl, -⟩ | ⟨rfl, -⟩ | ⟨rfl, -⟩ <;> revert hp <;> decide
  simp only [prefixTypes, List.mem_cons, Prod.mk.injEq, List.not_mem_nil, or_false] at hpL
  unfold getGraphs
  rw [if_neg hopt]
  simp only [List.isPrefixOf_iff_prefix]
  rcases hpL with ⟨rfl, rfl⟩ | ⟨rfl, rfl⟩ | ⟨rfl, rfl⟩ | ⟨rfl, rfl⟩ | ⟨rfl, rfl⟩
  · rw [if_pos hp]
  · have h1 : ¬ "ertest".toList <+: s := fun h => by
      have := hmax "ertest".toList .erTest (by decide) h
      revert this; decide
    have h2 : ¬ "er_density".toList <+: s := fun h => by
      have := hmax "er_density".toList .erDensity (by decide) h
      revert this; decide
    rw [if_neg (fun h => hno _ h (by decide)), if_neg h1, if_neg (fun h => hno _ h (by decide)), if_neg h2, if_pos hp]
  · rw [if_neg (fun h => hno _ h (by decide)), if_pos hp]
  · rw [if_neg (fun h => hno _ h (by decide)), if_neg (fun h => hno _ h (by decide)),
      if_neg (fun h => hno _ h (by decide)), if_pos hp]
  · rw [if_neg (fun h => hno _ h (by decide)), if_neg (fun h => hno _ h (by decide)), if_pos hp]

/-- C105 (class by name). -/
theorem getGraphs_exact (r : List Char) {s : List Char} {L : GraphLoader} (h : (s, L) ∈ exactTypes) :
    getGraphs s r = some L := by
  simp only [exactTypes, List.mem_cons, Prod.mk.injEq, List.not_mem_nil, or_false] at h
  rcases h with ⟨rfl, rfl⟩ | ⟨rfl, rfl⟩ | ⟨rfl, rfl⟩ | ⟨rfl, rfl⟩ <;> rfl

/-- C105 (Optsicom): the stored solutions for `rand_type = 'b'`, the text files otherwise. -/
theorem getGraphs_optsicom (r : List Char) : getGraphs "optsicom".toList r
    = if r = ['b'] then some .optsicomStatic else some .optsicomGen := rfl

/-- C105 (unknown types): an error exactly when no registered name or prefix fits. -/
theorem getGraphs_unknown (s r : List Char) : getGraphs s r = none ↔
    s ≠ "optsicom".toList ∧ (∀ q M, (q, M) ∈ prefixTypes → ¬ q <+: s) ∧ ∀ q M, (q, M) ∈ exactTypes → s ≠ q := by
  constructor
  · intro h
    refine ⟨?_, fun q M hq hp => ?_, fun q M hq hs => ?_⟩
    · rintro rfl
      unfold getGraphs at h
      rw [if_pos rfl] at h
      split_ifs at h
    · -- the longest matching prefix gives a class
      have hfin : ∃ e ∈ prefixTypes, e.1 <+: s ∧ ∀ e' ∈ prefixTypes, e'.1 <+: s → e'.1.length ≤ e.1.length := by
        have hne : (prefixTypes.filter fun e => e.1.isPrefixOf s) ≠ [] := by
          intro h0
          have : (q, M) ∈ prefixTypes.filter fun e => e.1.isPrefixOf s :=
            List.mem_filter.2 ⟨hq, by simpa using hp⟩
          rw [h0] at this
          simp at this
        obtain ⟨e, he, hm⟩ := Finset.exists_max_image _ (fun e => e.1.length) (List.toFinset_nonempty_iff _ |>.2 hne)
        obtain ⟨h1, h2⟩ := List.mem_filter.1 (List.mem_toFinset.1 he)
        exact ⟨e, h1, by simpa using h2, fun e' h' hp' =>
          hm e' (List.mem_toFinset.2 (List.mem_filter.2 ⟨h', by simpa using hp'⟩))⟩
      obtain ⟨⟨p, L⟩, h1, h2, h3⟩ := hfin
      rw [getGraphs_longest r h1 h2 fun q M hq hp => h3 (q, M) hq hp] at h
      exact absurd h (by simp)
    · subst hs
      rw [getGraphs_exact r hq] at h
      exact absurd h (by simp)
  · rintro ⟨h0, h1, h2⟩
    unfold getGraphs
    simp only [List.isPrefixOf_iff_prefix]
    rw [if_neg h0, if_neg (h1 _ .randGraph (by decide)), if_neg (h1 _ .erTest (by decide)),
      if_neg (h1 _ .satLib (by decide)), if_neg (h1 _ .erDensity (by decide)), if_neg (h1 _ .randGraph (by decide)),
      if_neg (h2 _ .rbTest (by decide)), if_neg (h2 _ .twitter (by decide)), if_neg (h2 _ .nets (by decide)),
      if_neg (h2 _ .gapRand (by decide))]

/-- Concrete cases: the graph types of the shipped sweeps. -/
example : getGraphs "er_density".toList "0.1".toList = some .erDensity ∧ getGraphs "er".toList [] = some .randGraph ∧
    getGraphs "ertest".toList [] = some .erTest ∧ getGraphs "optsicom".toList "b".toList = some .optsicomStatic ∧
    getGraphs "tsp".toList [] = none := by decide

/-! ### Which files, in which order -/

/-- C105 (order of the files): the instances and their numbering do not depend on the order in which the folder is listed,
so all processes of a run number them alike. -/
theorem fileList_perm {α : Type*} (keep : List Char → Bool) (folder : List Char) {dir dir' : List (List Char × α)}
    (hn : (dir.map Prod.fst).Nodup) (h : dir.Perm dir') : fileList keep folder dir = fileList keep folder dir' := by
  unfold fileList
  set f : List Char × α → List Char × α := fun f => (folder ++ '/' :: f.1, f.2) with hf
  have hsort : ∀ l : List (List Char × α), (l.mergeSort fun a b => decide (a.1 ≤ b.1)).Pairwise fun a b => a.1 ≤ b.1 := by
    intro l
    have := List.pairwise_mergeSort (le := fun a b : List Char × α => decide (a.1 ≤ b.1))
      (fun a b c h1 h2 => by simp only [decide_eq_true_eq] at *; exact le_trans h1 h2)
      (fun a b => by simp only [Bool.or_eq_true, decide_eq_true_eq]; exact le_total _ _) l
    exact this.imp fun h => by simpa using h
  have hp := ((List.mergeSort_perm ((dir.filter fun f => keep f.1).map f) fun a b => decide (a.1 ≤ b.1)).trans
    ((h.filter _).map f)).trans (List.mergeSort_perm ((dir'.filter fun f => keep f.1).map f)
      fun a b => decide (a.1 ≤ b.1)).symm
  refine List.Perm.eq_of_pairwise (le := fun a b => a.1 ≤ b.1) (fun a b ha hb h1 h2 => ?_) (hsort _) (hsort _) hp
  -- two entries with the same path are the same file
  have hmem : ∀ a ∈ (dir.filter fun f => keep f.1).map f, ∃ x ∈ dir, f x = a := fun a ha => by
    obtain ⟨x, hx, rfl⟩ := List.mem_map.1 ha
    exact ⟨x, (List.mem_filter.1 hx).1, rfl⟩
  obtain ⟨x, hx, rfl⟩ := hmem a (List.mem_mergeSort.1 ha)
  obtain ⟨y, hy, rfl⟩ := hmem b (((h.filter _).map f).mem_iff.2 (List.mem_mergeSort.1 hb))
  have : x.1 = y.1 := by
    have := le_antisymm h1 h2
    simpa [hf] using this
  rw [List.inj_on_of_nodup_map hn hx hy this]

/-- C105 (the files): every file with an accepted name, once, and no other. -/
theorem fileList_contents {α : Type*} (keep : List Char → Bool) (folder : List Char) (dir : List (List Char × α)) :
    ((fileList keep folder dir).map Prod.snd).Perm ((dir.filter fun f => keep f.1).map Prod.snd) := by
  unfold fileList
  refine ((List.mergeSort_perm _ _).map _).trans ?_
  rw [List.map_map]
  exact List.Perm.refl _

/-- C105 (names of the files): which names each class accepts. -/
theorem keep_names (n : List Char) :
    (keepRand n ↔ ∃ t, n = ['t', 'e', 's', 't', '-'] ++ t) ∧ (keepEr n ↔ ∃ t, n = ['E', 'R'] ++ t) ∧
    (keepSat n ↔ ∃ t, n = t ++ ['.', 'c', 'n', 'f']) ∧ (keepRB n ↔ ∃ t, n = ['R', 'B'] ++ t) ∧
    (keepTwitter n ↔ ∃ t, n = ['t', 'w', 'i', 't', 't', 'e', 'r'] ++ t) ∧ (keepGap n ↔ ∃ t, n = t ++ ['p', 'k', 'l']) := by
  have hp : ∀ p : List Char, p.isPrefixOf n ↔ ∃ t, n = p ++ t := fun p => by
    rw [List.isPrefixOf_iff_prefix]; exact ⟨fun ⟨t, h⟩ => ⟨t, h.symm⟩, fun ⟨t, h⟩ => ⟨t, h.symm⟩⟩
  have hs : ∀ p : List Char, p.isSuffixOf n ↔ ∃ t, n = t ++ p := fun p => by
    rw [List.isSuffixOf_iff_suffix]; exact ⟨fun ⟨t, h⟩ => ⟨t, h.symm⟩, fun ⟨t, h⟩ => ⟨t, h.symm⟩⟩
  exact ⟨hp _, hp _, hs _, hp _, hp _, hs _⟩

/-! ### Which instances, with which sizes -/

variable {G : Type*}

/-- What a loader promises: it yields the graphs `gs` in order with some reference values, and its sizes bound them. -/
def LoadsAll (nn ne : G → ℕ) (sizes : ℕ × ℕ × ℕ) (gs : List G) (ys : List (G × ℚ)) : Prop :=
  ys.map Prod.fst = gs ∧ sizes.2.2 = gs.length ∧ ∀ g ∈ gs, nn g ≤ sizes.1 ∧ ne g ≤ sizes.2.1

theorem loaderSizes_scan (nn ne : G → ℕ) {cfg : ℕ × ℕ × ℕ} (h0 : cfg.1 = 0 ∨ cfg.2.1 = 0 ∨ cfg.2.2 = 0) (gs : List G) :
    (loaderSizes cfg (gs.map fun g => (nn g, ne g))).2.2 = gs.length ∧
    ∀ g ∈ gs, nn g ≤ (loaderSizes cfg (gs.map fun g => (nn g, ne g))).1 ∧
      ne g ≤ (loaderSizes cfg (gs.map fun g => (nn g, ne g))).2.1 := by
  unfold loaderSizes
  rw [if_neg (by omega)]
  obtain ⟨h1, h2⟩ := scan_uniform (gs.map fun g => (nn g, ne g))
  refine ⟨by rw [h1, List.length_map], fun g hg => ?_⟩
  obtain ⟨h3, h4⟩ := h2 (nn g, ne g) (List.mem_map.2 ⟨g, hg, rfl⟩)
  refine ⟨h3, ?_⟩
  simp only [paddedLen] at h4
  split_ifs at h4 with h5 <;> omega

/-- C105 (`RandGraphGen`, sizes scanned): all records of all files, with the first reference value of each. -/
theorem rand_loads (nn ne : G → ℕ) {cfg : ℕ × ℕ × ℕ} (h0 : cfg.1 = 0 ∨ cfg.2.1 = 0 ∨ cfg.2.2 = 0)
    (files : List (List Char × List (G × List ℚ))) {ys : List (G × ℚ)} (hy : randYields files = some ys) :
    LoadsAll nn ne (loaderSizes cfg ((files.flatMap fun f => f.2.map Prod.fst).map fun g => (nn g, ne g)))
      (files.flatMap fun f => f.2.map Prod.fst) ys ∧
    ys.map Prod.snd = (files.flatMap (·.2)).map fun d => d.2.headD 0 := by
  unfold randYields at hy
  have key : ∀ (ds : List (G × List ℚ)) (ys : List (G × ℚ)),
      (ds.mapM fun d => d.2.head?.map fun sol => (d.1, sol)) = some ys →
      ys.map Prod.fst = ds.map Prod.fst ∧ ys.map Prod.snd = ds.map fun d => d.2.headD 0 := by
    intro ds
    induction ds with
    | nil => intro ys h; simp at h; subst h; simp
    | cons d ds ih =>
      intro ys h
      rw [List.mapM_cons] at h
      cases hd : d.2 with
      | nil => simp [hd] at h
      | cons a l =>
        simp only [hd, List.head?_cons, Option.map_some, Option.bind_eq_bind, Option.bind_some] at h
        cases hm : (ds.mapM fun d => d.2.head?.map fun sol => (d.1, sol)) with
        | none => simp [hm] at h
        | some zs =>
          simp [hm] at h
          subst h
          obtain ⟨h1, h2⟩ := ih zs hm
          simp [h1, h2, hd]
  obtain ⟨h1, h2⟩ := key _ _ hy
  have e : files.flatMap (fun f => f.2.map Prod.fst) = (files.flatMap (·.2)).map Prod.fst := by
    rw [List.map_flatMap]
  exact ⟨⟨by rw [h1, e], loaderSizes_scan nn ne h0 _⟩, h2⟩

/-- C105 (`ErTestGraphGen`, sizes scanned): one graph per file; the reference value is the sum of the labels present, and `1`
if that is zero. -/
theorem er_loads (nn ne : G → ℕ) {cfg : ℕ × ℕ × ℕ} (h0 : cfg.1 = 0 ∨ cfg.2.1 = 0 ∨ cfg.2.2 = 0)
    (labels : G → List (Option ℚ)) (files : List (List Char × G)) :
    LoadsAll nn ne (loaderSizes cfg ((files.map Prod.snd).map fun g => (nn g, ne g))) (files.map Prod.snd)
      (erYields labels files) ∧
    ∀ y ∈ erYields labels files, y.2 = if ((labels y.1).filterMap id).sum = 0 then 1 else ((labels y.1).filterMap id).sum := by
  refine ⟨⟨by simp [erYields], loaderSizes_scan nn ne h0 _⟩, fun y hy => ?_⟩
  obtain ⟨f, -, rfl⟩ := List.mem_map.1 hy
  have key : ∀ (ls : List (Option ℚ)) (a : ℚ),
      ls.foldl erAdd a = a + (ls.filterMap id).sum := by
    intro ls
    induction ls with
    | nil => intro a; simp
    | cons l ls ih =>
      intro a
      cases l with
      | none => simpa [erAdd] using ih a
      | some v => rw [List.foldl_cons, ih]; simp [erAdd, add_assoc]
  simp only [erRef, key, zero_add]

/-- C105 (`ErDensityGraphGen`). -/
theorem density_loads (nn ne : G → ℕ) (gs : List G) :
    LoadsAll nn ne (scanSizes (gs.map fun g => (nn g, ne g))) gs (densityYields gs) ∧
    ∀ y ∈ densityYields gs, y.2 = 1 := by
  have := loaderSizes_scan nn ne (cfg := (0, 0, 0)) (Or.inl rfl) gs
  refine ⟨⟨by simp [densityYields, Function.comp_def], this⟩, fun y hy => ?_⟩
  obtain ⟨g, -, rfl⟩ := List.mem_map.1 hy
  rfl

/-- C105 (`RandGraphs` of the normalised cut): one graph per file, reference value `1`. -/
theorem gap_loads (files : List (List Char × G)) :
    (gapYields files).map Prod.fst = files.map Prod.snd ∧ ∀ y ∈ gapYields files, y.2 = 1 := by
  refine ⟨by simp [gapYields, Function.comp_def], fun y hy => ?_⟩
  obtain ⟨f, -, rfl⟩ := List.mem_map.1 hy
  rfl

/-- C105 (`SatLibGraphGen`, sizes scanned): the graph of every formula. -/
theorem sat_loads {F : Type*} (nn ne : G → ℕ) {cfg : ℕ × ℕ × ℕ} (h0 : cfg.1 = 0 ∨ cfg.2.1 = 0 ∨ cfg.2.2 = 0)
    (conv : F → Option G) (files : List (List Char × F)) {ys : List (G × ℚ)} (hy : satYields conv files = some ys) :
    LoadsAll nn ne (loaderSizes cfg ((ys.map Prod.fst).map fun g => (nn g, ne g))) (ys.map Prod.fst) ys ∧
    (ys.map fun y => some y.1) = (files.map fun f => conv f.2) ∧ ∀ y ∈ ys, y.2 = 1 := by
  refine ⟨⟨rfl, loaderSizes_scan nn ne h0 _⟩, ?_⟩
  unfold satYields at hy
  induction files generalizing ys with
  | nil => simp at hy; subst hy; simp
  | cons f fs ih =>
    rw [List.mapM_cons] at hy
    cases hc : conv f.2 with
    | none => simp [hc] at hy
    | some g =>
      simp only [hc, Option.map_some, Option.bind_eq_bind, Option.bind_some] at hy
      cases hm : (fs.mapM fun f => (conv f.2).map fun g => (g, (1 : ℚ))) with
      | none => simp [hm] at hy
      | some zs =>
        simp [hm] at hy
        subst hy
        obtain ⟨h1, h2⟩ := ih hm
        exact ⟨by simp [hc, h1], fun y hy => (List.mem_cons.1 hy).elim (fun h => h ▸ rfl) (h2 y)⟩

/-- C105 (`RBTestGraphGen`, sizes scanned): every pair of every file, graph and value kept together. -/
theorem rb_loads (nn ne : G → ℕ) {cfg : ℕ × ℕ × ℕ} (h0 : cfg.1 = 0 ∨ cfg.2.1 = 0 ∨ cfg.2.2 = 0)
    (files : List (List Char × List (ℚ × G))) :
    LoadsAll nn ne (loaderSizes cfg ((rbGraphs files).map fun g => (nn g, ne g))) (rbGraphs files) (rbYields files) ∧
    (rbYields files).map Prod.swap = files.flatMap (·.2) := by
  refine ⟨⟨?_, loaderSizes_scan nn ne h0 _⟩, ?_⟩
  · simp [rbYields, rbGraphs, List.map_flatMap, Function.comp_def]
  · simp [rbYields, List.map_flatMap, Function.comp_def]

/-- C105 (`TwitterGraphs`, sizes scanned): complete exactly when every file has at least as many values as graphs. -/
theorem twitter_loads (nn ne : G → ℕ) {cfg : ℕ × ℕ × ℕ} (h0 : cfg.1 = 0 ∨ cfg.2.1 = 0 ∨ cfg.2.2 = 0)
    (files : List (List Char × List G × List ℚ)) :
    LoadsAll nn ne (loaderSizes cfg ((twitterGraphs files).map fun g => (nn g, ne g))) (twitterGraphs files)
      (twitterYields files) ↔ ∀ f ∈ files, f.2.1.length ≤ f.2.2.length := by
  have hlen : ∀ fs : List (List Char × List G × List ℚ), (twitterYields fs).length ≤ (twitterGraphs fs).length ∧
      ((twitterYields fs).length = (twitterGraphs fs).length → ∀ f ∈ fs, f.2.1.length ≤ f.2.2.length) := by
    intro fs
    induction fs with
    | nil => simp [twitterYields, twitterGraphs]
    | cons f fs ih =>
      simp only [twitterYields, twitterGraphs, List.flatMap_cons, List.length_append, List.length_zip,
        List.mem_cons, forall_eq_or_imp] at ih ⊢
      refine ⟨by omega, fun h => ⟨by omega, ih.2 (by omega)⟩⟩
  constructor
  · intro h
    exact (hlen files).2 (by rw [← h.1, List.length_map])
  · intro h
    refine ⟨?_, loaderSizes_scan nn ne h0 _⟩
    unfold twitterYields twitterGraphs
    rw [List.map_flatMap]
    refine List.flatMap_congr fun f hf => ?_
    rw [List.map_fst_zip (h f hf)]

/-- C105 (`TwitterGraphs`, values): each graph comes with the value at its own place in its own file. -/
theorem twitter_values (files : List (List Char × List G × List ℚ)) (g : G) (v : ℚ) :
    (g, v) ∈ twitterYields files ↔ ∃ f ∈ files, ∃ i : ℕ, f.2.1[i]? = some g ∧ f.2.2[i]? = some v := by
  unfold twitterYields
  rw [List.mem_flatMap]
  refine exists_congr fun f => and_congr_right fun _ => ?_
  rw [List.mem_iff_getElem?]
  exact exists_congr fun i => List.getElem?_zip_eq_some

/-- C105 (sizes from the configuration): with all three sizes configured the files are not looked at; `RandGraphs` never
looks at them. -/
theorem loaderSizes_cfg {cfg : ℕ × ℕ × ℕ} (h : 0 < cfg.1 ∧ 0 < cfg.2.1 ∧ 0 < cfg.2.2) (gs : List (ℕ × ℕ)) :
    loaderSizes cfg gs = cfg := by
  unfold loaderSizes; rw [if_pos h]

/-- Concrete case: three files listed in two orders. -/
example : fileList keepEr "d".toList [("ER2".toList, 'b'), ("x".toList, 'c'), ("ER1".toList, 'a')] =
    fileList keepEr "d".toList [("ER1".toList, 'a'), ("ER2".toList, 'b'), ("x".toList, 'c')] :=
  fileList_perm _ _ (by decide) (by decide)

/-- Concrete case: reference values. -/
example : erRef [some 1, none, some 1, some 0] = 2 ∧ erRef [none, some 0] = 1 := by decide +kernel

end Discs
