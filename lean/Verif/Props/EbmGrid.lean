import Verif.Model.EbmGrid
import Verif.Props.PlotClusters

/-!
# C123: the picture of samples shows every sampler's images
-/

namespace Discs

theorem ebmImages_some (folders : List (List Char × List Char)) (chain : List Char → ℕ)
    (h : ∀ f ∈ folders, ebmChain f.2 = some (chain f.2)) (prev : Option ℕ) :
    ebmImages prev folders
      = some (folders.flatMap fun f => (List.range 10).map fun i => ⟨f.1, i, chain f.2⟩) := by
  induction folders generalizing prev with
  | nil => rfl
  | cons f fs ih =>
    rw [ebmImages, h f (by simp)]
    simp only [Option.some_or, Option.bind_eq_bind, Option.bind_some]
    rw [ih fun f' hf' => h f' (List.mem_cons_of_mem _ hf')]
    rfl

theorem ebmImages_length {prev : Option ℕ} {folders : List (List Char × List Char)} {imgs : List EbmImage}
    (h : ebmImages prev folders = some imgs) : imgs.length = folders.length * 10 := by
  induction folders generalizing prev imgs with
  | nil => cases h; rfl
  | cons f fs ih =>
    rw [ebmImages] at h
    simp only [Option.bind_eq_bind, Option.bind_eq_some_iff, Option.pure_def, Option.some.injEq] at h
    obtain ⟨c, _, rest, hr, rfl⟩ := h
    simp only [List.length_append, List.length_map, List.length_range, List.length_cons, ih hr]
    omega

theorem flatMap_ten {A B : Type*} (g : A → ℕ → B) (l : List A) (r c : ℕ) (hc : c < 10) :
    (l.flatMap fun a => (List.range 10).map (g a))[r * 10 + c]? = l[r]?.map fun a => g a c := by
  induction l generalizing r with
  | nil => simp
  | cons a l ih =>
    rw [List.flatMap_cons]
    cases r with
    | zero =>
      rw [List.getElem?_append_left (by simpa using hc)]
      simp [hc]
    | succ r =>
      rw [List.getElem?_append_right (by simp; omega)]
      have : (r + 1) * 10 + c - ((List.range 10).map (g a)).length = r * 10 + c := by
        simp only [List.length_map, List.length_range]; omega
      rw [this, ih]
      rfl

/-- **C123.** At most eight folders, all of samplers with a branch of their own, and all files present: row `r` shows
ten images of folder `r` in the order of the steps, all of one chain, the chain of the sampler's branch; the row is
labelled with the sampler's name, and the columns are labelled in the eighth row. -/
theorem ebm_figure (onDisk : EbmImage → Bool) (folders : List (List Char × List Char)) (chain : List Char → ℕ)
    (h : ∀ f ∈ folders, ebmChain f.2 = some (chain f.2)) (h8 : folders.length ≤ 8)
    (hdisk : ∀ f ∈ folders, ∀ i < 10, onDisk ⟨f.1, i, chain f.2⟩ = true) :
    ∃ cells, ebmFigure onDisk folders = some cells ∧ cells.length = folders.length * 10 ∧
      ∀ r c f, c < 10 → folders[r]? = some f →
        cells[r * 10 + c]? = some ⟨⟨f.1, c, chain f.2⟩, if r = 7 then some (c + 1) else none,
          if c = 0 then some f.2 else none⟩ := by
  have him := ebmImages_some folders chain h none
  have hlen := ebmImages_length him
  unfold ebmFigure
  rw [him, Option.bind_some]
  set imgs := folders.flatMap fun f => (List.range 10).map fun i => (⟨f.1, i, chain f.2⟩ : EbmImage) with himgs
  have hcond : (imgs.all onDisk && decide (imgs.length ≤ 8 * 10)) = true := by
    rw [Bool.and_eq_true, decide_eq_true_eq]
    refine ⟨List.all_eq_true.2 fun img himg => ?_, by omega⟩
    obtain ⟨f, hf, hi⟩ := List.mem_flatMap.1 himg
    obtain ⟨i, hi', rfl⟩ := List.mem_map.1 hi
    exact hdisk f hf i (List.mem_range.1 hi')
  unfold ebmCells
  rw [if_pos hcond]
  refine ⟨_, rfl, by rw [List.length_mapIdx, hlen], ?_⟩
  intro r c f hc hf
  have hr : r < folders.length := (List.getElem?_eq_some_iff.1 hf).1
  rw [List.getElem?_mapIdx, himgs, flatMap_ten (fun f i => (⟨f.1, i, chain f.2⟩ : EbmImage)) folders r c hc, hf]
  have e1 : (r * 10 + c) % 10 = c := by omega
  have e2 : (r * 10 + c) / 10 = r := by omega
  have e3 : 8 * 10 - 10 ≤ r * 10 + c ↔ r = 7 := by omega
  simp only [Option.map_some, e1, e2, e3, List.getElem?_map, hf, Nat.add_comm 1 c]

/-- **C123, refuted part.** More than eight folders, and there is no picture. -/
theorem ebm_too_many (onDisk : EbmImage → Bool) (folders : List (List Char × List Char)) (h : 8 < folders.length) :
    ebmFigure onDisk folders = none := by
  unfold ebmFigure
  cases him : ebmImages none folders with
  | none => rfl
  | some imgs =>
    have := ebmImages_length him
    rw [Option.bind_some]
    unfold ebmCells
    rw [if_neg]
    rw [Bool.and_eq_true, decide_eq_true_eq]
    omega

/-- **C123, refuted part.** A first folder of a sampler without a branch, and there is no picture. -/
theorem ebm_first_unknown (onDisk : EbmImage → Bool) (f : List Char × List Char) (fs : List (List Char × List Char))
    (h : ebmChain f.2 = none) : ebmFigure onDisk (f :: fs) = none := by
  unfold ebmFigure
  rw [ebmImages, h]
  rfl

/-- **C123, refuted part.** A later folder of a sampler without a branch shows the chain of the folder before it. -/
theorem ebm_stale (f g : List Char × List Char) (fs : List (List Char × List Char)) (prev : Option ℕ)
    (hg : ebmChain g.2 = none) {imgs : List EbmImage} (h : ebmImages prev (f :: g :: fs) = some imgs) :
    ∃ c, (imgs.take 10).map (·.chain) = List.replicate 10 c ∧
      ((imgs.drop 10).take 10).map (·.chain) = List.replicate 10 c ∧
      ((imgs.drop 10).take 10).map (·.folder) = List.replicate 10 g.1 := by
  rw [ebmImages] at h
  simp only [Option.bind_eq_bind, Option.bind_eq_some_iff, Option.pure_def, Option.some.injEq] at h
  obtain ⟨c, _, rest, hr, rfl⟩ := h
  rw [ebmImages, hg] at hr
  simp only [Option.none_or, Option.bind_eq_bind, Option.bind_some, Option.bind_eq_some_iff, Option.pure_def,
    Option.some.injEq] at hr
  obtain ⟨rest', _, rfl⟩ := hr
  refine ⟨c, ?_, ?_, ?_⟩ <;> rfl

/-- Random walk, and every name that carries the balancing function or says that the sampler does not adapt, has no
branch. -/
theorem ebm_no_branch : ebmChain "rmw".toList = none ∧ ebmChain "gwg(r)".toList = none ∧
    ebmChain "dlmc-nA".toList = none ∧ ebmName "1_chain_length=10000,name='randomwalk'".toList = some "rmw".toList := by
  decide +kernel

/-- **C123, refuted part.** The saver never leaves an image: it is not asked to, and if it were it would fail. -/
theorem dumpImages_none (visualize : Bool) (steps chains : ℕ) {l : List (ℕ × ℕ)}
    (h : dumpImages visualize steps chains = some l) : l = [] := by
  unfold dumpImages at h
  split at h
  · cases h
  · cases h; rfl

/-- With `visualize` and anything to save there is an exception. -/
theorem dumpImages_visualize {steps chains : ℕ} (hs : 0 < steps) (hc : 0 < chains) :
    dumpImages true steps chains = none := by
  simp [dumpImages, hs, hc]

/-- So the picture needs files that the program does not write. -/
theorem ebm_needs_files (f : List Char × List Char) (fs : List (List Char × List Char)) :
    ebmFigure (fun _ => false) (f :: fs) = none := by
  unfold ebmFigure
  cases him : ebmImages none (f :: fs) with
  | none => rfl
  | some imgs =>
    have hl := ebmImages_length him
    rw [Option.bind_some]
    unfold ebmCells
    cases imgs with
    | nil => simp at hl
    | cons a l => rfl

/-- The eight folders of one data set of the shipped sweep, in the order in which Python sorts them: the row of random
walk shows chain 3, the chain of the folder before it. -/
example :
    (["13_name='path_auxiliary',balancing_fn_type='SQRT'", "14_name='gwg',balancing_fn_type='SQRT'",
      "15_name='dmala',balancing_fn_type='SQRT'", "21_name='dlmc',balancing_fn_type='SQRT',solver='interpolate'",
      "22_name='dlmc',balancing_fn_type='SQRT',solver='euler_forward'", "4_name='randomwalk'", "5_name='blockgibbs'",
      "6_name='hammingball'"].mapM fun f => (ebmName f.toList).map fun n => (f.toList, n)).bind
      (fun fs => (ebmImages none fs).map fun imgs => (List.range 8).map fun r => (imgs[r * 10]?.map (·.chain)))
      = some [some 0, some 0, some 3, some 1, some 3, some 3, some 2, some 1] := by decide +kernel

/-- The hypotheses of `ebm_figure` on two folders. -/
example : ∃ cells, ebmFigure (fun _ => true) [("a".toList, "gwg".toList), ("b".toList, "dmala".toList)] = some cells ∧
    cells[13]? = some ⟨⟨"b".toList, 3, 3⟩, none, none⟩ := by
  obtain ⟨cells, h1, _, h3⟩ := ebm_figure (fun _ => true) [("a".toList, "gwg".toList), ("b".toList, "dmala".toList)]
    (fun n => if n = "gwg".toList then 0 else 3) (by decide) (by simp) (by simp)
  exact ⟨cells, h1, h3 1 3 _ (by omega) rfl⟩

end Discs
