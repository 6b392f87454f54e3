import Verif.Lemmas.LabelChecks
import Verif.Props.FolderNames
import Verif.Props.Labels
import Verif.Props.PlotClusters

/-!
# Labels of the shipped sweeps (C96)
-/

namespace Discs
open Spec

/-- The number of the work unit is not read. -/
theorem jobDict_unit (w w' : ℕ) (kw : List Arg) : jobDict w kw = jobDict w' kw := by
  have hd : ∀ n : ℕ, '_' ∉ Nat.toDigits 10 n := fun n h => by
    have := Nat.isDigit_of_mem_toDigits (by norm_num) (by norm_num) h
    exact absurd this (by decide)
  unfold jobDict jobFolder
  cases shortArgs (kw.map argSweep) with
  | none => rfl
  | some a =>
    have : experimentConfig (folderName (Nat.toDigits 10 w) a) = experimentConfig (folderName (Nat.toDigits 10 w') a) := by
      unfold experimentConfig folderName
      simp only [afterFirst_eq _ _ (hd _)]
    simp only [Option.map_some, Option.bind_some, this]

private theorem mem_part {A : Type*} {l : List A} {a : A} (h : a ∈ l) {n m : ℕ} (hn : 0 < n) (hl : l.length ≤ n * m) :
    ∃ i < m, a ∈ (l.drop (n * i)).take n := by
  obtain ⟨k, hk, rfl⟩ := List.mem_iff_getElem.1 h
  refine ⟨k / n, (Nat.div_lt_iff_lt_mul hn).2 (by rw [mul_comm]; omega), ?_⟩
  refine List.mem_iff_getElem.2 ⟨k % n, ?_, ?_⟩
  · have h1 := Nat.mod_lt k hn
    have h2 := Nat.div_add_mod k n
    rw [List.length_take, List.length_drop]
    omega
  · simp only [List.getElem_take, List.getElem_drop, Nat.div_add_mod]

private theorem all_part {A : Type*} {l : List A} {f : A → Bool} {n m : ℕ} (hn : 0 < n) (hl : l.length ≤ n * m)
    (h : ∀ i < m, ((l.drop (n * i)).take n).all f = true) : ∀ a ∈ l, f a = true := by
  intro a ha
  obtain ⟨i, hi, hm⟩ := mem_part ha hn hl
  exact List.all_eq_true.1 (h i hi) a hm

private theorem nameCheck_job {rc : RunConfig} (hrc : rc ∈ shippedSweeps) {js : List (List Arg)} (hj : rc.jobs = some js)
    {kw : List Arg} (hkw : kw ∈ js) : nameCheck kw = true := by
  have hs := List.all_eq_true.1 sweeps_size rc hrc
  rw [hj, Option.getD_some, decide_eq_true_eq] at hs
  obtain ⟨j, hj4, hm⟩ := mem_part hkw (n := 64) (m := 4) (by norm_num) (by omega)
  have h := all_part (f := fun rc => (portion rc j).all nameCheck) (n := 2) (m := 22) (by norm_num) (by decide)
    (fun i hi => nameCheck_part i hi j hj4) rc hrc
  refine List.all_eq_true.1 h kw ?_
  unfold portion
  rw [hj, Option.getD_some]
  exact hm

/-- **C96 (the shipped sweeps, reading).** In every shipped sweep the folder of every job, whatever its work unit, is read
back: its label is the one of the swept settings of its sampler and one that the plots know, and every other swept
setting (but the name of the experiment, whose key is that of the sampler) is among the keys with its value. -/
theorem shipped_labels_read {rc : RunConfig} (hrc : rc ∈ shippedSweeps) {js : List (List Arg)} (hj : rc.jobs = some js)
    {kw : List Arg} (hkw : kw ∈ js) (w : ℕ) :
    ∃ d, jobDict w kw = some d ∧ dictGet d "name".toList = some (labelOf (samplerArgs kw)) ∧
      (samplerId (labelOf (samplerArgs kw))).isSome ∧
      ∀ a ∈ otherArgs kw, a.1.2 ≠ .name → dictGet d a.1.2.text = some (shownVal a.1.2 a.2) := by
  have h := nameCheck_job hrc hj hkw
  unfold nameCheck at h
  rw [jobDict_unit w 0]
  split at h
  · simp at h
  · rename_i d hd
    simp only [Bool.and_eq_true, decide_eq_true_eq, List.all_eq_true, Bool.or_eq_true] at h
    exact ⟨d, hd, h.1.1.1.1, h.1.1.1.2, fun a ha hn => (h.1.1.2 a ha).resolve_left hn⟩

/-- **C96 (the shipped sweeps).** Two jobs of a shipped sweep have the same label exactly if all swept settings of their
samplers are the same, and they have the same label and the same other keys only if all swept settings are the same. -/
theorem shipped_labels {rc : RunConfig} (hrc : rc ∈ shippedSweeps) {js : List (List Arg)} (hj : rc.jobs = some js)
    {kw kw' : List Arg} (hkw : kw ∈ js) (hkw' : kw' ∈ js) {w w' : ℕ} {d d' : ExpDict} (hd : jobDict w kw = some d)
    (hd' : jobDict w' kw' = some d') :
    (dictGet d "name".toList = dictGet d' "name".toList ↔ samplerArgs kw = samplerArgs kw') ∧
    ((∀ k, dictGet d k = dictGet d' k) → samplerArgs kw = samplerArgs kw' ∧ (otherArgs kw).Perm (otherArgs kw')) := by
  obtain ⟨e, he, hn, -, hr⟩ := shipped_labels_read hrc hj hkw w
  obtain ⟨e', he', hn', -, hr'⟩ := shipped_labels_read hrc hj hkw' w'
  obtain rfl := Option.some.inj (hd.symm.trans he)
  obtain rfl := Option.some.inj (hd'.symm.trans he')
  have h1 : dictGet d "name".toList = dictGet d' "name".toList ↔ samplerArgs kw = samplerArgs kw' := by
    rw [hn, hn', Option.some.injEq]
    refine ⟨fun h => ?_, fun h => by rw [h]⟩
    have hc := all_part (n := 11) (m := 4) (by norm_num) (by decide) samplerCheck_part rc hrc
    unfold samplerCheck at hc
    simp only [hj, Option.getD_some, List.all_eq_true, List.mem_dedup] at hc
    have := hc _ (List.mem_map_of_mem hkw) _ (List.mem_map_of_mem hkw')
    simp only [Bool.or_eq_true, decide_eq_true_eq, Bool.not_eq_true', decide_eq_false_iff_not] at this
    exact this.resolve_right fun hh => hh h
  refine ⟨h1, fun h => ⟨h1.1 (h _), ?_⟩⟩
  have hc := all_part (n := 4) (m := 11) (by norm_num) (by decide) otherCheck_part rc hrc
  unfold otherCheck at hc
  simp only [hj, Option.getD_some, List.all_eq_true, List.mem_dedup] at hc
  have := hc _ (List.mem_map_of_mem hkw) _ (List.mem_map_of_mem hkw')
  simp only [Bool.or_eq_true, List.isPerm_iff, List.any_eq_true, Bool.and_eq_true, decide_eq_true_eq, Bool.not_eq_true',
    decide_eq_false_iff_not] at this
  refine this.resolve_right ?_
  rintro ⟨p, hp, q, hq, ⟨hk, hnm, -⟩, hne⟩
  have e1 := hr p hp hnm
  have e2 := hr' q hq (hk ▸ hnm)
  rw [h, hk, e2, Option.some.injEq, ← hk] at e1
  exact hne (by rw [← hk]; exact e1.symm)

/-! ### Figures -/

private theorem keys_read {rc : RunConfig} (hrc : rc ∈ shippedSweeps) {js : List (List Arg)} (hj : rc.jobs = some js)
    {kw : List Arg} (hkw : kw ∈ js) {w : ℕ} {d : ExpDict} (hd : jobDict w kw = some d) :
    (∀ k, (dictGet d k).isSome → k = "name".toList ∨ ∃ a ∈ otherArgs kw, a.1.2.text = k) ∧ (d.map Prod.fst).Nodup := by
  have h := nameCheck_job hrc hj hkw
  unfold nameCheck at h
  rw [jobDict_unit w 0] at hd
  rw [hd] at h
  simp only [Bool.and_eq_true, decide_eq_true_eq, List.all_eq_true, Bool.or_eq_true, List.any_eq_true] at h
  refine ⟨fun k hk => ?_, h.2⟩
  obtain ⟨kv, hkv, rfl⟩ := List.mem_map.1 ((dictGet_isSome d k).1 hk)
  exact h.1.2 kv hkv

private theorem text_name (k : Key) : k.text = "name".toList ↔ k = .name := by
  cases k <;> decide

private theorem text_save (k : Key) : k.text = "save_samples".toList ↔ k = .save_samples := by
  cases k <;> decide

/-- The dictionaries of two jobs of a sweep have the same keys. -/
private theorem keys_same {rc : RunConfig} (hrc : rc ∈ shippedSweeps) {js : List (List Arg)} (hj : rc.jobs = some js)
    {kw kw' : List Arg} (hkw : kw ∈ js) (hkw' : kw' ∈ js) {w w' : ℕ} {d d' : ExpDict} (hd : jobDict w kw = some d)
    (hd' : jobDict w' kw' = some d') (k : List Char) (hk : (dictGet d k).isSome) : (dictGet d' k).isSome := by
  obtain ⟨e', he', hn', -, hr'⟩ := shipped_labels_read hrc hj hkw' w'
  obtain rfl := Option.some.inj (hd'.symm.trans he')
  rcases (keys_read hrc hj hkw hd).1 k hk with rfl | ⟨a, ha, rfl⟩
  · rw [hn']; rfl
  · have hc := all_part (n := 11) (m := 4) (by norm_num) (by decide) keysCheck_part rc hrc
    unfold keysCheck at hc
    simp only [hj, Option.getD_some, List.all_eq_true, List.mem_dedup, List.any_eq_true, decide_eq_true_eq] at hc
    obtain ⟨b, hb, hab⟩ := hc _ (List.mem_map_of_mem hkw) _ (List.mem_map_of_mem hkw') a ha
    by_cases hn : b.1.2 = .name
    · rw [hab, (text_name _).2 hn, hn']; rfl
    · rw [hab, hr' b hb hn]; rfl

/-- The runs `runs`, given by work unit and swept settings, are read as `ds`. -/
def Spec.ReadAs (runs : List (ℕ × List Arg)) (ds : List ExpDict) : Prop :=
  List.Forall₂ (fun r d => resultDict r.1 r.2 = some d) runs ds

private theorem readAs_get {runs : List (ℕ × List Arg)} {ds : List ExpDict} (h : ReadAs runs ds) {a : ExpDict}
    (ha : a ∈ ds) : ∃ r ∈ runs, ∃ d, jobDict r.1 r.2 = some d ∧ a = dictDel d "save_samples".toList := by
  unfold ReadAs at h
  induction h with
  | nil => simp at ha
  | cons h1 _ ih =>
    rcases List.mem_cons.1 ha with rfl | ha
    · obtain ⟨d, hd, rfl⟩ := Option.map_eq_some_iff.1 h1
      exact ⟨_, List.mem_cons_self, d, hd, rfl⟩
    · obtain ⟨r, hr, x⟩ := ih ha
      exact ⟨r, List.mem_cons_of_mem _ hr, x⟩

/-- **C85 (the shipped sweeps).** Whichever runs of a shipped sweep are there and in whatever order, two of them are in the
same cluster exactly if they agree in all keys but the plotted one and the label. -/
theorem shipped_clusters {rc : RunConfig} (hrc : rc ∈ shippedSweeps) {js : List (List Arg)} (hj : rc.jobs = some js)
    {runs : List (ℕ × List Arg)} (hruns : ∀ r ∈ runs, r.2 ∈ js) {ds : List ExpDict} (hds : ReadAs runs ds)
    (key : List Char) (i j : ℕ) (hi : i ∈ (clustersBy key ds).flatten) (hj' : j ∈ (clustersBy key ds).flatten) :
    (∃ c ∈ clustersBy key ds, i ∈ c ∧ j ∈ c) ↔ Spec.AgreeOutside key (ds.getD i []) (ds.getD j []) := by
  refine clusters_classes_partial key ds ?_ ?_ i j hi hj'
  · intro a ha b hb k
    obtain ⟨r, hr, d, hd, rfl⟩ := readAs_get hds ha
    obtain ⟨r', hr', d', hd', rfl⟩ := readAs_get hds hb
    rw [dictGet_del, dictGet_del]
    split_ifs
    · rfl
    · rw [Bool.eq_iff_iff]
      exact ⟨keys_same hrc hj (hruns r hr) (hruns r' hr') hd hd' k, keys_same hrc hj (hruns r' hr') (hruns r hr) hd' hd k⟩
  · intro a ha
    obtain ⟨r, hr, d, hd, rfl⟩ := readAs_get hds ha
    exact ((keys_read hrc hj (hruns r hr) hd).2).sublist (List.filter_sublist.map _)

/-- **C85 (the shipped sweeps, one figure for the samplers).** With `--key=name` every run of a shipped sweep is in a
cluster, and two are in the same exactly if all swept settings but those of the sampler are the same. -/
theorem shipped_clusters_name {rc : RunConfig} (hrc : rc ∈ shippedSweeps) {js : List (List Arg)} (hj : rc.jobs = some js)
    {runs : List (ℕ × List Arg)} (hruns : ∀ r ∈ runs, r.2 ∈ js) {ds : List ExpDict} (hds : ReadAs runs ds)
    {i j : ℕ} (hi : i < runs.length) (hj' : j < runs.length) :
    i ∈ (clustersBy "name".toList ds).flatten ∧
    ((∃ c ∈ clustersBy "name".toList ds, i ∈ c ∧ j ∈ c) ↔ (otherArgs runs[i].2).Perm (otherArgs runs[j].2)) := by
  have hlen : runs.length = ds.length := List.Forall₂.length_eq hds
  have hget : ∀ m (hm : m < runs.length), ∃ d, jobDict runs[m].1 runs[m].2 = some d ∧
      ds.getD m [] = dictDel d "save_samples".toList := by
    intro m hm
    have := List.Forall₂.get hds hm (hlen ▸ hm)
    simp only [List.get_eq_getElem] at this
    obtain ⟨d, hd, he⟩ := Option.map_eq_some_iff.1 this
    exact ⟨d, hd, by rw [he, List.getD, List.getElem?_eq_getElem (hlen ▸ hm : m < ds.length)]; rfl⟩
  have hmem : ∀ m, m < runs.length → m ∈ (clustersBy "name".toList ds).flatten := by
    intro m hm
    refine (clusters_partition "name".toList ds).1.mem_iff.2 (List.mem_filter.2 ⟨List.mem_range.2 (hlen ▸ hm), ?_⟩)
    obtain ⟨d, hd, he⟩ := hget m hm
    obtain ⟨e, he', hn, -⟩ := shipped_labels_read hrc hj (hruns _ (List.getElem_mem hm)) runs[m].1
    obtain rfl := Option.some.inj (hd.symm.trans he')
    rw [he, dictGet_del, if_neg (by decide), hn]
    rfl
  refine ⟨hmem i hi, ?_⟩
  rw [shipped_clusters hrc hj hruns hds _ i j (hmem i hi) (hmem j hj')]
  obtain ⟨d, hd, he⟩ := hget i hi
  obtain ⟨d', hd', he'⟩ := hget j hj'
  have hji := hruns _ (List.getElem_mem hi)
  have hjj := hruns _ (List.getElem_mem hj')
  obtain ⟨x, hx, -, -, hr⟩ := shipped_labels_read hrc hj hji runs[i].1
  obtain rfl := Option.some.inj (hd.symm.trans hx)
  obtain ⟨x', hx', -, -, hr'⟩ := shipped_labels_read hrc hj hjj runs[j].1
  obtain rfl := Option.some.inj (hd'.symm.trans hx')
  rw [he, he']
  constructor
  · intro h
    have hc := all_part (n := 4) (m := 11) (by norm_num) (by decide) otherCheck_part rc hrc
    unfold otherCheck at hc
    simp only [hj, Option.getD_some, List.all_eq_true, List.mem_dedup] at hc
    have := hc _ (List.mem_map_of_mem hji) _ (List.mem_map_of_mem hjj)
    simp only [Bool.or_eq_true, List.isPerm_iff, List.any_eq_true, Bool.and_eq_true, decide_eq_true_eq, Bool.not_eq_true',
      decide_eq_false_iff_not] at this
    refine this.resolve_right ?_
    rintro ⟨p, hp, q, hq, ⟨hk, hnm, hsv⟩, hne⟩
    have e1 := hr p hp hnm
    have e2 := hr' q hq (hk ▸ hnm)
    have e3 := h p.1.2.text (fun e => hnm ((text_name _).1 e)) (fun e => hnm ((text_name _).1 e))
    rw [dictGet_del, dictGet_del, if_neg (fun e => hsv ((text_save _).1 e)), if_neg (fun e => hsv ((text_save _).1 e)), e1,
      hk, e2, Option.some.injEq, ← hk] at e3
    exact hne (by rw [← hk]; exact e3)
  · intro h k hk _
    rw [dictGet_del, dictGet_del]
    split_ifs
    · rfl
    · by_cases hs : (dictGet d k).isSome
      · rcases (keys_read hrc hj hji hd).1 k hs with e | ⟨a, ha, rfl⟩
        · exact absurd e hk
        · have hn : a.1.2 ≠ .name := fun e => hk ((text_name _).2 e)
          rw [hr a ha hn, hr' a (h.mem_iff.1 ha) hn]
      · have hs' : ¬ (dictGet d' k).isSome := fun e => hs (keys_same hrc hj hjj hji hd' hd k e)
        rw [Option.not_isSome_iff_eq_none.1 hs, Option.not_isSome_iff_eq_none.1 hs']

/-- Three runs of a shipped sweep are read. -/
example : ∃ ds, ReadAs [(7, [((.experiment, .chain_length), .int 100), ((.sampler, .name), .str "randomwalk")]),
    (3, [((.experiment, .chain_length), .int 1000), ((.sampler, .name), .str "randomwalk")]),
    (5, [((.experiment, .chain_length), .int 100), ((.sampler, .name), .str "hammingball")])] ds ∧
    clustersBy "name".toList ds = [[0, 2], [1]] := by
  refine ⟨[exD [("chain_length", "100"), ("name", "rwm")], exD [("chain_length", "1000"), ("name", "rwm")],
    exD [("chain_length", "100"), ("name", "hb-10-1")]], ?_, by decide +kernel⟩
  exact .cons (by decide +kernel) (.cons (by decide +kernel) (.cons (by decide +kernel) .nil))

/-- Two jobs of a shipped sweep with the same label. -/
example : ∃ kw kw' : List Arg, swBernoulliChainLengthSweep.jobs.any (fun js => js.contains kw && js.contains kw') = true ∧
    kw ≠ kw' ∧ labelOf (samplerArgs kw) = "rwm".toList ∧ labelOf (samplerArgs kw') = "rwm".toList := by
  refine ⟨[((.experiment, .chain_length), .int 100), ((.sampler, .name), .str "randomwalk")],
    [((.experiment, .chain_length), .int 1000), ((.sampler, .name), .str "randomwalk")], ?_⟩
  decide +kernel

end Discs
