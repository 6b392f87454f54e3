import Verif.Model.LoadModel
import Verif.Props.Shipped
import Verif.Props.Learning
import Verif.Props.InitSamples

/-!
# C125: a trained model is sampled as it was trained
-/

namespace Discs

open Spec

variable {Θ : Type}

/-! ### Helpers -/

private theorem set_same (s : DeepSec) (k : DeepKey) (v : DeepVal) : s.set k v k = some v := by
  simp [DeepSec.set]

private theorem set_other (s : DeepSec) {k k' : DeepKey} (v : DeepVal) (h : k' ≠ k) : s.set k v k' = s k' := by
  simp [DeepSec.set, h]

private theorem ofRun_run (run : Sec Key Val) (k : Key) : DeepSec.ofRun run (.run k) = (run k).map .run := rfl

private theorem dataPath_run {run : Sec Key Val} {dir : String} (hp : run .data_path = some (.str dir)) (hd : dir ≠ "") :
    (DeepSec.ofRun run).dataPath = some dir := by
  simp [DeepSec.dataPath, ofRun_run, hp, hd]

private theorem nat_run {run : Sec Key Val} {k : Key} {z : ℤ} (hp : run k = some (.int z)) :
    (DeepSec.ofRun run).nat (.run k) = some z.toNat := by
  simp [DeepSec.nat, ofRun_run, hp]

/-- The section of a trained RBM, entry by entry. -/
theorem rbmTrainSec_entries {dataset : String} {vocab hidden : ℕ} {ts : DeepSec}
    (h : rbmTrainSec dataset vocab hidden = some ts) :
    ts .num_visible = some (.run (.int 784)) ∧ ts .num_hidden = some (.run (.int hidden)) ∧
      ts (.run .num_categories) = some (.run (.int vocab)) ∧ ts (.run .shape) = some (.run (.tuple [784])) ∧
      ts (.run .name) = some (.run (.str "rbm")) ∧ ts (.run .data_path) = none ∧
      (hidden = 200 → ts (.run .save_dir_name) = some (.run (.str "rbm_lowtemp"))) := by
  unfold rbmTrainSec at h
  simp only at h
  split_ifs at h with h1 h2 h3 <;> cases h <;>
    refine ⟨?_, ?_, ?_, ?_, ?_, ?_, ?_⟩ <;> first | rfl | (intro h; first | rfl | exact absurd h h2)

private theorem ebmTrainSec_entries {dataset : String} (hd : dataset ∈ ["dynamic_mnist", "static_mnist", "omniglot", "caltech"])
    (channels : ℕ) :
    ebmTrainSec dataset channels .n_channels = some (.run (.int channels)) ∧
      ebmTrainSec dataset channels .image_shape = some (.run (.tuple [28, 28])) ∧
      ebmTrainSec dataset channels (.run .num_categories) = some (.run (.int 2)) ∧
      ebmTrainSec dataset channels (.run .shape) = some (.run (.tuple [784])) ∧
      ebmTrainSec dataset channels (.run .data_path) = none ∧ ebmTrainSec dataset channels .data_mean = none := by
  unfold ebmTrainSec
  rw [if_pos hd]
  exact ⟨rfl, rfl, rfl, rfl, rfl, rfl⟩

private theorem update_some {a b : DeepSec} {k : DeepKey} {v : DeepVal} (h : b k = some v) : Sec.update a b k = some v := by
  simp [Sec.update, h]

private theorem nat_of {s : DeepSec} {k : DeepKey} {z : ℤ} (h : s k = some (.run (.int z))) : s.nat k = some z.toNat := by
  simp [DeepSec.nat, h]

private theorem tuple_of {s : DeepSec} {k : DeepKey} {l : List ℕ} (h : s k = some (.run (.tuple l))) : s.tuple k = some l := by
  simp [DeepSec.tuple, h]

private theorem dataPath_of_none {s : DeepSec} (h : s (.run .data_path) = none) : s.dataPath = none := by
  simp [DeepSec.dataPath, h]

private theorem dataMean_of {s : DeepSec} {l : List ℝ} (h : s .data_mean = some (.floats l)) : s.dataMean = some l := by
  simp [DeepSec.dataMean, h]

private theorem deepLoad_folder {fs : String → DeepFolder Θ} {s : DeepSec} {p : String} (hp : s.dataPath = some p)
    {saved : SavedParams Θ} {conf : DeepSec} (h : fs p = ⟨some saved, some conf⟩) :
    deepLoad fs s = some (s.update conf, some saved) := by
  simp [deepLoad, hp, h]

private theorem deepLoad_plain (fs : String → DeepFolder Θ) {s : DeepSec} (hp : s.dataPath = none) :
    deepLoad fs s = some (s, none) := by
  simp [deepLoad, hp]

private theorem binaryRbm_of {fs : String → DeepFolder Θ} {s s' : DeepSec} {saved : Option (SavedParams Θ)} {v h c : ℤ}
    {sh : List ℕ} (hl : deepLoad fs s = some (s', saved)) (h1 : s' .num_visible = some (.run (.int v)))
    (h2 : s' .num_hidden = some (.run (.int h))) (h3 : s' (.run .num_categories) = some (.run (.int c)))
    (h4 : s' (.run .shape) = some (.run (.tuple sh))) :
    binaryRbm fs s = some ⟨s', c.toNat, sh, [v.toNat, h.toNat], saved.map (·.net), saved.map (·.mean.entries),
      saved.map (·.mean.entries)⟩ := by
  simp [binaryRbm, hl, nat_of h1, nat_of h2, nat_of h3, tuple_of h4]

/-! ### RBMs -/

/-- **C125 (RBM).** Train a binary RBM on any number of devices, save it, and start a sampling run for two categories with
the folder as `data_path`; all other settings of the run are arbitrary.  Then the model is built, it has the parameters of
the first device at the end of training, and computes for all parameters and samples what the training program computed.
The sizes, the shape and the categories that sampler and experiment read are those of training, and the chains start from
the mean of the data. -/
theorem rbm_sampled_as_trained {dataset : String} {hidden : ℕ} {ts : DeepSec}
    (ht : rbmTrainSec dataset 2 hidden = some ts) (mean : List ℝ) {dev : ℕ} (final : Fin (dev + 1) → Θ)
    (fs : String → DeepFolder Θ) {dir : String} (hd : dir ≠ "") (hdir : fs dir = rbmSave ts mean final)
    (run : Sec Key Val) (hc : run .num_categories = some (.int 2)) (hp : run .data_path = some (.str dir)) :
    ∃ mt ms, buildRbm fs (ts.set .data_mean (.floats mean)) = some mt ∧ buildRbm fs (DeepSec.ofRun run) = some ms ∧
      ms.params = some (final 0) ∧ (∀ a x, ms.rbmForward a x = mt.rbmForward a x) ∧
      ms.numCategories = 2 ∧ ms.shape = [784] ∧ ms.sizes = [784, hidden] ∧
      (∀ k v, ts k = some v → ms.sec k = some v) ∧ ms.initProb = some mean := by
  obtain ⟨e1, e2, e3, e4, -, e6, -⟩ := rbmTrainSec_entries ht
  set tm := ts.set .data_mean (.floats mean) with htm
  have hne : ∀ k : DeepKey, k ≠ .data_mean → tm k = ts k := fun k hk => set_other _ _ hk
  have hdm : ts .data_mean = none := by
    unfold rbmTrainSec at ht
    simp only at ht
    split_ifs at ht <;> cases ht <;> rfl
  have hT := binaryRbm_of (deepLoad_plain fs (s := tm) (dataPath_of_none (by rw [hne _ (by simp)]; exact e6)))
    (by rw [hne _ (by simp)]; exact e1) (by rw [hne _ (by simp)]; exact e2) (by rw [hne _ (by simp)]; exact e3)
    (by rw [hne _ (by simp)]; exact e4)
  have hS := binaryRbm_of (deepLoad_folder (dataPath_run hp hd) hdir)
    (update_some (by rw [← htm, hne _ (by simp)]; exact e1)) (update_some (by rw [← htm, hne _ (by simp)]; exact e2))
    (update_some (by rw [← htm, hne _ (by simp)]; exact e3)) (update_some (by rw [← htm, hne _ (by simp)]; exact e4))
  have hT' : buildRbm fs tm = binaryRbm fs tm := by
    unfold buildRbm
    rw [nat_of (s := tm) (by rw [hne _ (by simp)]; exact e3)]
    rfl
  have hS' : buildRbm fs (DeepSec.ofRun run) = binaryRbm fs (DeepSec.ofRun run) := by
    unfold buildRbm
    rw [nat_run hc]
    rfl
  refine ⟨_, _, hT'.trans hT, hS'.trans hS, rfl, fun a x => rfl, rfl, rfl, rfl, fun k v hkv => ?_, rfl⟩
  have hk : k ≠ .data_mean := fun h => by rw [h, hdm] at hkv; cases hkv
  exact update_some (by rw [← htm, hne _ hk]; exact hkv)

/-- **C125 (RBM, the value).** With arrays of the trained sizes the built model evaluates the RBM with these arrays. -/
theorem rbm_forward_value {m : DeepModel Θ} (hc : m.numCategories = 2) {V H : ℕ} (hs : m.sizes = [V, H])
    (P : RBMParams V H) (x : Fin V → ℝ) :
    m.rbmForward ⟨V, H, P⟩ (List.ofFn x) = some (rbmForward P x) := by
  unfold DeepModel.rbmForward
  rw [if_neg (by simp [hc]), dif_pos ⟨hs, by simp⟩]
  simp

/-- **C125 (settings of the run).** Two runs with the same folder and the same number of categories build models that agree
in everything that decides what they compute, and their configurations agree on all settings of training. -/
theorem rbm_run_settings (fs : String → DeepFolder Θ) {dir : String} (hd : dir ≠ "") {saved : SavedParams Θ}
    {conf : DeepSec} (hdir : fs dir = ⟨some saved, some conf⟩)
    (hk : ∀ k ∈ [DeepKey.num_visible, .num_hidden, .run .num_categories, .run .shape], conf k ≠ none)
    (run run' : Sec Key Val) (hp : run .data_path = some (.str dir)) (hp' : run' .data_path = some (.str dir))
    (hc : run .num_categories = run' .num_categories) :
    Option.Rel (fun m m' : DeepModel Θ => m.numCategories = m'.numCategories ∧ m.shape = m'.shape ∧ m.sizes = m'.sizes ∧
        m.params = m'.params ∧ m.mean = m'.mean ∧ m.initProb = m'.initProb ∧ ∀ k, conf k ≠ none → m.sec k = m'.sec k)
      (buildRbm fs (DeepSec.ofRun run)) (buildRbm fs (DeepSec.ofRun run')) := by
  have hu : ∀ (r : Sec Key Val) (k : DeepKey), conf k ≠ none → Sec.update (DeepSec.ofRun r) conf k = conf k := by
    intro r k h
    obtain ⟨v, hv⟩ := Option.ne_none_iff_exists'.1 h
    rw [update_some hv, hv]
  have hn : (DeepSec.ofRun run).nat (.run .num_categories) = (DeepSec.ofRun run').nat (.run .num_categories) := by
    simp [DeepSec.nat, ofRun_run, hc]
  have e : ∀ k ∈ [DeepKey.num_visible, .num_hidden, .run .num_categories, .run .shape],
      Sec.update (DeepSec.ofRun run) conf k = Sec.update (DeepSec.ofRun run') conf k := fun k h => by
    rw [hu run k (hk k h), hu run' k (hk k h)]
  have n1 : DeepSec.nat (Sec.update (DeepSec.ofRun run) conf) .num_visible =
      DeepSec.nat (Sec.update (DeepSec.ofRun run') conf) .num_visible := by
    unfold DeepSec.nat; rw [e _ (by simp)]
  have n2 : DeepSec.nat (Sec.update (DeepSec.ofRun run) conf) .num_hidden =
      DeepSec.nat (Sec.update (DeepSec.ofRun run') conf) .num_hidden := by
    unfold DeepSec.nat; rw [e _ (by simp)]
  have n3 : DeepSec.nat (Sec.update (DeepSec.ofRun run) conf) (.run .num_categories) =
      DeepSec.nat (Sec.update (DeepSec.ofRun run') conf) (.run .num_categories) := by
    unfold DeepSec.nat; rw [e _ (by simp)]
  have n4 : DeepSec.tuple (Sec.update (DeepSec.ofRun run) conf) (.run .shape) =
      DeepSec.tuple (Sec.update (DeepSec.ofRun run') conf) (.run .shape) := by
    unfold DeepSec.tuple; rw [e _ (by simp)]
  have l1 := deepLoad_folder (dataPath_run hp hd) hdir
  have l2 := deepLoad_folder (dataPath_run hp' hd) hdir
  unfold buildRbm
  rw [hn]
  cases (DeepSec.ofRun run').nat (.run .num_categories) with
  | none => exact Option.Rel.none
  | some c =>
    simp only [Option.bind_eq_bind, Option.bind_some]
    split_ifs
    · unfold binaryRbm
      rw [l1, l2]
      simp only [Option.bind_eq_bind, Option.bind_some, n1, n2, n3, n4]
      cases DeepSec.nat (Sec.update (DeepSec.ofRun run') conf) .num_visible <;> [exact Option.Rel.none; skip]
      cases DeepSec.nat (Sec.update (DeepSec.ofRun run') conf) .num_hidden <;> [exact Option.Rel.none; skip]
      cases DeepSec.nat (Sec.update (DeepSec.ofRun run') conf) (.run .num_categories) <;> [exact Option.Rel.none; skip]
      cases DeepSec.tuple (Sec.update (DeepSec.ofRun run') conf) (.run .shape) <;> [exact Option.Rel.none; skip]
      exact Option.Rel.some ⟨rfl, rfl, rfl, rfl, rfl, rfl, fun k h => (hu run k h).trans (hu run' k h).symm⟩
    · unfold categRbm
      rw [l1, l2]
      simp only [Option.bind_eq_bind, Option.bind_some, n1, n2, n3, n4]
      cases DeepSec.nat (Sec.update (DeepSec.ofRun run') conf) .num_visible <;> [exact Option.Rel.none; skip]
      cases DeepSec.nat (Sec.update (DeepSec.ofRun run') conf) .num_hidden <;> [exact Option.Rel.none; skip]
      cases DeepSec.nat (Sec.update (DeepSec.ofRun run') conf) (.run .num_categories) <;> [exact Option.Rel.none; skip]
      simp only [Option.bind_some]
      cases saved.mean with
      | list l => exact Option.Rel.none
      | array l =>
        simp only
        cases DeepSec.tuple (Sec.update (DeepSec.ofRun run') conf) (.run .shape) <;> [exact Option.Rel.none; skip]
        exact Option.Rel.some ⟨rfl, rfl, rfl, rfl, rfl, rfl, fun k h => (hu run k h).trans (hu run' k h).symm⟩
    · exact Option.Rel.none

/-- **C125, refuted part (the mean is not used in training).** The training program puts the mean of the data into the
configuration, but the RBM takes a mean from loaded parameters only: its chains start from fair coins whatever the data
are. -/
theorem rbm_training_ignores_mean {dataset : String} {hidden : ℕ} {ts : DeepSec}
    (ht : rbmTrainSec dataset 2 hidden = some ts) (mean : List ℝ) (fs : String → DeepFolder Θ) :
    ∃ mt, buildRbm fs (ts.set .data_mean (.floats mean)) = some mt ∧ mt.mean = none ∧
      mt.initLaw 784 = initRandint 2 784 := by
  obtain ⟨e1, e2, e3, e4, -, e6, -⟩ := rbmTrainSec_entries ht
  set tm := ts.set .data_mean (.floats mean) with htm
  have hne : ∀ k : DeepKey, k ≠ .data_mean → tm k = ts k := fun k hk => set_other _ _ hk
  have hT := binaryRbm_of (deepLoad_plain fs (s := tm) (dataPath_of_none (by rw [hne _ (by simp)]; exact e6)))
    (by rw [hne _ (by simp)]; exact e1) (by rw [hne _ (by simp)]; exact e2) (by rw [hne _ (by simp)]; exact e3)
    (by rw [hne _ (by simp)]; exact e4)
  have hT' : buildRbm fs tm = binaryRbm fs tm := by
    unfold buildRbm
    rw [nat_of (s := tm) (by rw [hne _ (by simp)]; exact e3)]
    rfl
  refine ⟨_, hT'.trans hT, rfl, ?_⟩
  funext x
  exact initDataMean_spec.1 x

/-- **C125, refuted part (more than two categories).** An RBM for more than two categories cannot be trained: its
constructor raises. -/
theorem rbm_categories_untrainable {dataset : String} {vocab hidden : ℕ} (hv : vocab ≠ 2) {ts : DeepSec}
    (ht : rbmTrainSec dataset vocab hidden = some ts) (mean : List ℝ) (fs : String → DeepFolder Θ) :
    buildRbm fs (ts.set .data_mean (.floats mean)) = none := by
  obtain ⟨e1, e2, e3, e4, -, e6, -⟩ := rbmTrainSec_entries ht
  set tm := ts.set .data_mean (.floats mean) with htm
  have hne : ∀ k : DeepKey, k ≠ .data_mean → tm k = ts k := fun k hk => set_other _ _ hk
  unfold buildRbm
  rw [nat_of (s := tm) (by rw [hne _ (by simp)]; exact e3)]
  simp only [Option.bind_eq_bind, Option.bind_some, Int.toNat_natCast]
  rw [if_neg hv]
  split_ifs
  · unfold categRbm
    rw [deepLoad_plain fs (s := tm) (dataPath_of_none (by rw [hne _ (by simp)]; exact e6))]
    simp only [Option.bind_eq_bind, Option.bind_some, Option.bind_none]
    simp
  · rfl

/-- **C125, refuted part (the class is chosen before the folder is read).** A run whose own setting of the categories is
not two cannot load a folder written by training, although the folder says how many categories there are. -/
theorem rbm_wrong_class (fs : String → DeepFolder Θ) {dir : String} {ts : DeepSec} {mean : List ℝ} {dev : ℕ}
    {final : Fin (dev + 1) → Θ} (hd : dir ≠ "") (hdir : fs dir = rbmSave ts mean final) (run : Sec Key Val)
    (hc : run .num_categories ≠ some (.int 2)) (hp : run .data_path = some (.str dir)) :
    buildRbm fs (DeepSec.ofRun run) = none := by
  unfold buildRbm
  cases hn : (DeepSec.ofRun run).nat (.run .num_categories) with
  | none => rfl
  | some c =>
    have hc2 : c ≠ 2 := by
      rintro rfl
      unfold DeepSec.nat at hn
      rw [ofRun_run] at hn
      cases hv : run .num_categories with
      | none => rw [hv] at hn; cases hn
      | some v =>
        rw [hv] at hn
        cases v with
        | int z =>
          simp only [Option.map_some, Option.some.injEq] at hn
          apply hc
          rw [hv]
          have : z = 2 := by omega
          rw [this]
        | _ => simp at hn
    simp only [Option.bind_eq_bind, Option.bind_some]
    rw [if_neg hc2]
    split_ifs
    · unfold categRbm
      rw [deepLoad_folder (dataPath_run hp hd) hdir]
      simp only [Option.bind_eq_bind, Option.bind_some]
      simp
    · rfl

/-- An empty `data_path` is no folder: whatever is on disc, the model is the same and has no parameters. -/
theorem deep_empty_path (fs fs' : String → DeepFolder Θ) (sec : DeepSec)
    (hp : sec (.run .data_path) = some (.run (.str ""))) :
    buildRbm fs sec = buildRbm fs' sec ∧
      buildEbm fs sec = buildEbm fs' sec ∧
      (∀ m, buildRbm fs sec = some m → m.params = none ∧ m.mean = none) ∧
      ∀ m, buildEbm fs sec = some m → m.params = none := by
  have hn : sec.dataPath = none := by simp [DeepSec.dataPath, hp]
  have l := deepLoad_plain fs hn
  have l' := deepLoad_plain fs' hn
  refine ⟨by simp [buildRbm, binaryRbm, categRbm, l, l'], by simp [buildEbm, l, l'], fun m h => ?_, fun m h => ?_⟩
  · unfold buildRbm at h
    cases hc : sec.nat (.run .num_categories) with
    | none => rw [hc] at h; cases h
    | some c =>
      rw [hc] at h
      simp only [Option.bind_eq_bind, Option.bind_some] at h
      split_ifs at h
      · simp only [binaryRbm, l, Option.bind_eq_bind, Option.bind_some, Option.bind_eq_some_iff, Option.map_none,
          Option.pure_def, Option.some.injEq] at h
        obtain ⟨_, _, _, _, _, _, _, _, rfl⟩ := h
        exact ⟨rfl, rfl⟩
      · simp [categRbm, l] at h
  · unfold buildEbm at h
    cases hc : sec.nat (.run .num_categories) with
    | none => rw [hc] at h; cases h
    | some c =>
      rw [hc] at h
      simp only [Option.bind_eq_bind, Option.bind_some] at h
      split_ifs at h
      · simp only [l, hc, Option.bind_some, Option.bind_eq_some_iff, Option.map_none,
          Option.pure_def, Option.some.injEq] at h
        obtain ⟨_, _, _, _, _, _, rfl⟩ := h
        rfl

/-- An image model is built for two categories only; the run's own setting counts. -/
theorem ebm_wrong_categories (fs : String → DeepFolder Θ) (run : Sec Key Val)
    (hc : run .num_categories ≠ some (.int 2)) : buildEbm fs (DeepSec.ofRun run) = none := by
  unfold buildEbm
  cases hn : (DeepSec.ofRun run).nat (.run .num_categories) with
  | none => rfl
  | some c =>
    have hc2 : c ≠ 2 := by
      rintro rfl
      unfold DeepSec.nat at hn
      rw [ofRun_run] at hn
      cases hv : run .num_categories with
      | none => rw [hv] at hn; cases hn
      | some v =>
        rw [hv] at hn
        cases v with
        | int z =>
          simp only [Option.map_some, Option.some.injEq] at hn
          apply hc
          rw [hv]
          have : z = 2 := by omega
          rw [this]
        | _ => simp at hn
    simp [hc2]

/-- A folder whose configuration names another number of categories can be loaded by a run for two, but the model then
computes no energy at all. -/
theorem rbm_folder_categories (fs : String → DeepFolder Θ) {dir : String} (hd : dir ≠ "") {saved : SavedParams Θ}
    {conf : DeepSec} (hdir : fs dir = ⟨some saved, some conf⟩) {c : ℕ} (hc : c ≠ 2)
    (hconf : conf (.run .num_categories) = some (.run (.int c))) (run : Sec Key Val)
    (hr : run .num_categories = some (.int 2)) (hp : run .data_path = some (.str dir)) {m : DeepModel Θ}
    (hm : buildRbm fs (DeepSec.ofRun run) = some m) : m.numCategories = c ∧ ∀ a x, m.rbmForward a x = none := by
  have l := deepLoad_folder (dataPath_run hp hd) hdir
  have hk : DeepSec.nat (Sec.update (DeepSec.ofRun run) conf) (.run .num_categories) = some c := by
    have := nat_of (update_some (a := DeepSec.ofRun run) hconf)
    simpa using this
  have h2 := nat_run hr
  unfold buildRbm at hm
  rw [h2] at hm
  have hcm : m.numCategories = c := by
    simp only [binaryRbm, l, Option.bind_eq_bind, Option.bind_some, Option.bind_eq_some_iff, Option.pure_def,
      Option.some.injEq, Int.reduceToNat, if_true] at hm
    obtain ⟨_, _, _, _, c', h3, _, _, rfl⟩ := hm
    have := hk.symm.trans h3
    simpa using this.symm
  exact ⟨hcm, fun a x => by unfold DeepModel.rbmForward; rw [if_pos (by rw [hcm]; exact hc)]⟩

/-- A folder without `params.pkl` or without `config.yaml` cannot be used. -/
theorem deep_missing (fs : String → DeepFolder Θ) {dir : String} (hd : dir ≠ "")
    (hm : (fs dir).params = none ∨ (fs dir).config = none) (run : Sec Key Val) (hp : run .data_path = some (.str dir)) :
    buildRbm fs (DeepSec.ofRun run) = none ∧ buildEbm fs (DeepSec.ofRun run) = none := by
  have hl : deepLoad fs (DeepSec.ofRun run) = none := by
    unfold deepLoad
    rw [dataPath_run hp hd]
    simp only [Option.bind_eq_bind]
    cases h1 : (fs dir).params with
    | none => rfl
    | some s =>
      rcases hm with h | h
      · rw [h1] at h; cases h
      · simp [h]
  constructor
  · unfold buildRbm
    cases (DeepSec.ofRun run).nat (.run .num_categories) with
    | none => rfl
    | some c =>
      simp only [Option.bind_eq_bind, Option.bind_some]
      unfold binaryRbm categRbm
      rw [hl]
      simp
  · unfold buildEbm
    cases (DeepSec.ofRun run).nat (.run .num_categories) with
    | none => rfl
    | some c =>
      simp only [Option.bind_eq_bind, Option.bind_some]
      rw [hl]
      simp

/-- **C125 (what is saved).** The files do not depend on the decay of the moving average: the average over training that
`global_update_fn` keeps is not what is saved. -/
theorem saved_ignores_average {ι : Type} {dev : ℕ} (sec : DeepSec) (mean : List ℝ) (init : ι → ℝ) (p : ℕ → ι → ℝ) (n : ℕ)
    (decay decay' : ℝ) :
    rbmSave sec mean (fun _ : Fin (dev + 1) => (emaRun decay init p n).params) =
        rbmSave sec mean (fun _ : Fin (dev + 1) => (emaRun decay' init p n).params) ∧
      (0 < n → (emaRun decay init p n).params = p (n - 1)) := by
  have h : ∀ d, (emaRun d init p n).params = if n = 0 then init else p (n - 1) := by
    intro d
    cases n with
    | zero => rfl
    | succ n => simp [emaRun, List.range_succ, emaUpdate]
  exact ⟨by rw [h, h], fun hn => by rw [h, if_neg (by omega)]⟩

/-- The average differs: after two updates with parameters `0` and `1` and decay `1/2` it is `1/2`, and `1` is saved. -/
example : (emaRun (1 / 2) (fun _ : Unit => 0) (fun t _ => t) 2).ema () = 1 / 2 ∧
    (emaRun (1 / 2) (fun _ : Unit => 0) (fun t _ => (t : ℝ)) 2).params () = 1 := by
  constructor <;> norm_num [emaRun, List.range_succ, emaUpdate, applyEma]

/-- **C125, refuted part (the folder of a local run).** `save_dir_name` of the trained configuration comes too late: the
folder of the results is chosen before the model is built, from the settings of the run. -/
theorem rbm_save_dir_late {dataset : String} {ts : DeepSec} (ht : rbmTrainSec dataset 2 200 = some ts) (mean : List ℝ)
    {dev : ℕ} (final : Fin (dev + 1) → Θ) (fs : String → DeepFolder Θ) {dir : String} (hd : dir ≠ "")
    (hdir : fs dir = rbmSave ts mean final) (join : Val → Val) (c : Cfg Key Val)
    (hn : c .model .name = some (.str "rbm")) (hs : c .model .save_dir_name = none)
    (hc : c .model .num_categories = some (.int 2)) (hp : c .model .data_path = some (.str dir)) :
    ∃ c' m, updateSaveDir launchKeys join true c = some c' ∧
      c' .experiment .save_root = some (join (.str "rbm")) ∧
      buildRbm fs (DeepSec.ofRun (c' .model)) = some m ∧
      m.sec (.run .save_dir_name) = some (.run (.str "rbm_lowtemp")) := by
  have hu : updateSaveDir launchKeys join true c = some (c.setKey .experiment .save_root (join (.str "rbm"))) := by
    simp [updateSaveDir, launchKeys, hn, hs]
  have hm : (c.setKey .experiment .save_root (join (.str "rbm"))) .model = c .model := by
    funext k
    simp [Cfg.setKey]
  obtain ⟨-, ms, -, h2, -, -, -, -, -, h8, -⟩ := rbm_sampled_as_trained ht mean final fs hd hdir (c .model) hc hp
  refine ⟨_, ms, hu, by simp [Cfg.setKey], by rw [hm]; exact h2, ?_⟩
  exact h8 _ _ ((rbmTrainSec_entries ht).2.2.2.2.2.2 rfl)

/-- **C125 (initial samples).** Chains of a sampling run start with every pixel on with the frequency it has in the data, so
the model's own mean of the data is the mean of its initial samples. -/
theorem deep_initLaw {m : DeepModel Θ} {mean : List ℝ} (h : m.initProb = some mean) (h01 : ∀ p ∈ mean, 0 ≤ p ∧ p ≤ 1) :
    IsLawOn (validStates 2 mean.length) (m.initLaw mean.length) ∧
      ∀ j : Fin mean.length,
        Spec.expect (validStates 2 mean.length) (m.initLaw mean.length) (fun x => (x j : ℝ)) = mean[j] := by
  have e : m.initLaw mean.length = initDataMean (some fun i : Fin mean.length => mean[i]) := by
    unfold DeepModel.initLaw
    rw [h]
    rw [Option.map_some]
    refine congrArg (fun f => initDataMean (some f)) ?_
    funext i
    simp [List.getD_eq_getElem?_getD]
  rw [e]
  exact initDataMean_spec.2 _ fun j => h01 _ (List.getElem_mem _)

/-! ### Image models -/

/-- **C125 (image models).** The same for the image models: parameters, network, base distribution and initial samples of the
sampling run are those of training. -/
theorem ebm_sampled_as_trained {dataset : String} (hds : dataset ∈ ["dynamic_mnist", "static_mnist", "omniglot", "caltech"])
    (channels : ℕ) (mean : List ℝ) {dev : ℕ} (final : Fin (dev + 1) → Θ)
    (fs : String → DeepFolder Θ) {dir : String} (hd : dir ≠ "")
    (hdir : fs dir = ebmSave (ebmTrainSec dataset channels) mean final)
    (run : Sec Key Val) (hc : run .num_categories = some (.int 2)) (hp : run .data_path = some (.str dir)) :
    ∃ mt ms, buildEbm fs ((ebmTrainSec dataset channels).set .data_mean (.floats mean)) = some mt ∧
      buildEbm fs (DeepSec.ofRun run) = some ms ∧ ms.params = some (final 0) ∧
      (∀ eps net θ x, ms.ebmForward eps net θ x = mt.ebmForward eps net θ x) ∧
      ms.mean = some mean ∧ ms.initProb = mt.initProb ∧ ms.initProb = some mean ∧
      ms.numCategories = 2 ∧ ms.shape = [784] ∧ ms.sizes = [channels, 28, 28] ∧
      ∀ k v, ebmTrainSec dataset channels k = some v → ms.sec k = some v := by
  obtain ⟨e1, e2, e3, e4, e5, e6⟩ := ebmTrainSec_entries hds channels
  set ts := ebmTrainSec dataset channels with hts
  set tm := ts.set .data_mean (.floats mean) with htm
  have hne : ∀ k : DeepKey, k ≠ .data_mean → tm k = ts k := fun k hk => set_other _ _ hk
  have l1 := deepLoad_plain fs (s := tm) (dataPath_of_none (by rw [hne _ (by simp)]; exact e5))
  have l2 := deepLoad_folder (dataPath_run hp hd) hdir
  rw [← htm] at l2
  have a1 : DeepSec.nat tm .n_channels = some channels := nat_of ((hne _ (by simp)).trans e1)
  have a2 : DeepSec.tuple tm .image_shape = some [28, 28] := tuple_of ((hne _ (by simp)).trans e2)
  have a3 : DeepSec.nat tm (.run .num_categories) = some 2 := nat_of ((hne _ (by simp)).trans e3)
  have a4 : DeepSec.tuple tm (.run .shape) = some [784] := tuple_of ((hne _ (by simp)).trans e4)
  have a5 : tm.dataMean = some mean := dataMean_of (set_same _ _ _)
  have b1 : DeepSec.nat (Sec.update (DeepSec.ofRun run) tm) .n_channels = some channels :=
    nat_of (update_some ((hne _ (by simp)).trans e1))
  have b2 : DeepSec.tuple (Sec.update (DeepSec.ofRun run) tm) .image_shape = some [28, 28] :=
    tuple_of (update_some ((hne _ (by simp)).trans e2))
  have b3 : DeepSec.nat (Sec.update (DeepSec.ofRun run) tm) (.run .num_categories) = some 2 :=
    nat_of (update_some ((hne _ (by simp)).trans e3))
  have b4 : DeepSec.tuple (Sec.update (DeepSec.ofRun run) tm) (.run .shape) = some [784] :=
    tuple_of (update_some ((hne _ (by simp)).trans e4))
  refine ⟨⟨tm, 2, [784], [channels, 28, 28], none, some mean, some mean⟩,
    ⟨Sec.update (DeepSec.ofRun run) tm, 2, [784], [channels, 28, 28], some (final 0), some mean, some mean⟩, ?_, ?_, rfl,
    fun _ _ _ _ => rfl, rfl, rfl, rfl, rfl, rfl, rfl, fun k v hkv => ?_⟩
  · unfold buildEbm
    simp [a3, l1, a1, a2, a4, a5]
  · unfold buildEbm
    rw [nat_run hc]
    simp [l2, b1, b2, b3, b4, MeanVal.entries]
  · have hk : k ≠ .data_mean := fun h => by rw [h, e6] at hkv; cases hkv
    exact update_some ((hne _ hk).trans hkv)

/-- **C125 (converted checkpoints).** A folder written by the conversion of a PyTorch checkpoint: the sampling run has the
converted parameters and the mean of the checkpoint as base distribution, although the configuration of the folder has no
mean. -/
theorem ebm_converted {dataset : String} (hds : dataset ∈ ["dynamic_mnist", "static_mnist", "omniglot", "caltech"])
    (channels : ℕ) (mean : List ℝ) (θ₀ : Θ) (fs : String → DeepFolder Θ) {dir : String} (hd : dir ≠ "")
    (hdir : fs dir = convertSave (ebmTrainSec dataset channels) mean θ₀)
    (run : Sec Key Val) (hc : run .num_categories = some (.int 2)) (hp : run .data_path = some (.str dir)) :
    ∃ ms, buildEbm fs (DeepSec.ofRun run) = some ms ∧ ms.params = some θ₀ ∧ ms.sizes = [channels, 28, 28] ∧
      ms.initProb = some mean ∧
      ∀ eps net θ x, ms.ebmForward eps net θ x = net [channels, 28, 28] θ x +
        ((x.zip mean).map fun p => p.1 * Real.log (p.2 + eps) + (1 - p.1) * Real.log (1 + (-p.2 + eps))).sum := by
  obtain ⟨e1, e2, e3, e4, e5, e6⟩ := ebmTrainSec_entries hds channels
  set ts := ebmTrainSec dataset channels with hts
  have l2 := deepLoad_folder (dataPath_run hp hd) hdir
  have b1 : DeepSec.nat (Sec.update (DeepSec.ofRun run) ts) .n_channels = some channels := nat_of (update_some e1)
  have b2 : DeepSec.tuple (Sec.update (DeepSec.ofRun run) ts) .image_shape = some [28, 28] := tuple_of (update_some e2)
  have b3 : DeepSec.nat (Sec.update (DeepSec.ofRun run) ts) (.run .num_categories) = some 2 := nat_of (update_some e3)
  have b4 : DeepSec.tuple (Sec.update (DeepSec.ofRun run) ts) (.run .shape) = some [784] := tuple_of (update_some e4)
  refine ⟨⟨Sec.update (DeepSec.ofRun run) ts, 2, [784], [channels, 28, 28], some θ₀, some mean, some mean⟩, ?_, rfl, rfl, rfl,
    fun _ _ _ _ => rfl⟩
  unfold buildEbm
  rw [nat_run hc]
  simp [l2, b1, b2, b3, b4, MeanVal.entries]

/-- **C125, refuted part.** For a data set that the configuration of the image models does not know, no error is raised when
the configuration is made; the model cannot be built. -/
theorem ebm_unknown_dataset {dataset : String} (hds : dataset ∉ ["dynamic_mnist", "static_mnist", "omniglot", "caltech"])
    (channels : ℕ) (mean : List ℝ) (fs : String → DeepFolder Θ) :
    buildEbm fs ((ebmTrainSec dataset channels).set .data_mean (.floats mean)) = none := by
  have hs : ebmTrainSec dataset channels = ((commonDeep.set (.run .name) (.run (.str "resnet"))).set (.run .num_categories)
      (.run (.int 2))).set .n_channels (.run (.int channels)) := by
    unfold ebmTrainSec
    rw [if_neg hds]
  rw [hs]
  rfl

/-! ### The shipped RBM sweep -/

/-- The folder of the RBM trained on a data set with a number of categories and of hidden units, in the shipped sweep. -/
def Spec.rbmFolder (dataset : String) (vocab hidden : ℕ) : String :=
  "/gcs/xcloud-shared/kgoshvadi/data/RBM_DATA/" ++ dataset ++ "-" ++ toString vocab ++ "-" ++ toString hidden ++ "/"

private def rbmNames : List (String × ℕ × ℕ) :=
  [("mnist", 2, 200), ("mnist", 2, 25), ("fashion_mnist", 4, 50), ("fashion_mnist", 8, 50)]

private theorem rbmSweep_check : (match swRbmSamplerSweep.jobs with
    | none => false
    | some js => js.all fun kw => match launch shippedRepo swRbmSamplerSweep "" "" kw with
      | none => false
      | some c => rbmNames.any fun t => decide (c .model .num_categories = some (.int t.2.1)) &&
          decide (c .model .data_path = some (.str (rbmFolder t.1 t.2.1 t.2.2)))) = true := by
  decide +kernel

/-- **C125 (the shipped RBM sweep).** Every job asks for the categories in the name of its folder; if the folders are what
training with these names leaves, exactly the jobs for two categories have a model. -/
theorem shipped_rbm_jobs {js : List (List Arg)} (hj : swRbmSamplerSweep.jobs = some js) {kw : List Arg} (hkw : kw ∈ js)
    {saveDir folder : String} {c : Cfg Key Val} (hc : launch shippedRepo swRbmSamplerSweep saveDir folder kw = some c) :
    ∃ (dataset : String) (vocab hidden : ℕ), c .model .num_categories = some (.int vocab) ∧
      c .model .data_path = some (.str (rbmFolder dataset vocab hidden)) ∧
      (rbmTrainSec dataset vocab hidden).isSome ∧
      ∀ (fs : String → DeepFolder Θ), (∃ ts mean, ∃ final : Fin 2 → Θ, rbmTrainSec dataset vocab hidden = some ts ∧
          fs (rbmFolder dataset vocab hidden) = rbmSave ts mean final) →
        ((buildRbm fs (DeepSec.ofRun (c .model))).isSome ↔ vocab = 2) := by
  have hmem : swRbmSamplerSweep ∈ shippedSweeps := by simp [shippedSweeps]
  obtain ⟨c₀, ha, h₀, -⟩ := job_facts hmem hj hkw hc
  have hchk := rbmSweep_check
  rw [hj] at hchk
  have hchk := List.all_eq_true.1 hchk kw hkw
  rw [h₀] at hchk
  simp only [List.any_eq_true, Bool.and_eq_true, decide_eq_true_eq] at hchk
  obtain ⟨⟨dataset, vocab, hidden⟩, ht, h1, h2⟩ := hchk
  rw [← ha .model .num_categories (by simp)] at h1
  rw [← ha .model .data_path (by simp)] at h2
  have hne : rbmFolder dataset vocab hidden ≠ "" := by
    unfold Spec.rbmFolder
    intro h
    have := congrArg String.length h
    simp [String.length_append] at this
  refine ⟨dataset, vocab, hidden, h1, h2, ?_, ?_⟩
  · have : dataset = "mnist" ∨ dataset = "fashion_mnist" := by
      simp only [rbmNames, List.mem_cons, Prod.mk.injEq, List.not_mem_nil, or_false] at ht
      tauto
    unfold rbmTrainSec
    simp only [this, if_true]
    split_ifs <;> rfl
  · rintro fs ⟨ts, mean, final, hts, hfs⟩
    constructor
    · intro h
      by_contra hv
      rw [rbm_wrong_class fs hne hfs (c .model) (by rw [h1]; simpa using fun h => hv (by exact_mod_cast h)) h2] at h
      cases h
    · rintro rfl
      obtain ⟨-, ms, -, h, -⟩ := rbm_sampled_as_trained hts mean final fs hne hfs (c .model) h1 h2
      rw [h]
      rfl

/-- **C125, refuted part (the shipped configuration).** With the shipped settings of the RBM and only the folder changed,
no folder written by training can be used. -/
theorem rbm_default_fails (fs : String → DeepFolder Θ) {dir : String} {ts : DeepSec} {mean : List ℝ} {dev : ℕ}
    {final : Fin (dev + 1) → Θ} (hd : dir ≠ "") (hdir : fs dir = rbmSave ts mean final) :
    ∃ file run, shippedRepo.model "rbm" = some file ∧ file.override (.data_path, .str dir) = some run ∧
      buildRbm fs (DeepSec.ofRun run) = none := by
  refine ⟨_, _, rfl, rfl, ?_⟩
  exact rbm_wrong_class fs hd hdir _ (by rw [if_neg (show ¬Key.num_categories = Key.data_path by decide)]; decide) (by simp [Val.text])

/-! ### Examples -/

/-- A folder, a run and the model it gives. -/
example : ∃ ts, rbmTrainSec "mnist" 2 200 = some ts ∧
    ∀ P : RBMParams 784 200, ∀ mean : List ℝ, ∀ x : Fin 784 → ℝ, ∃ m,
      buildRbm (fun _ => rbmSave ts mean fun _ : Fin 1 => (⟨784, 200, P⟩ : RbmArrays))
        (DeepSec.ofRun (Sec.ofList [(.name, .str "rbm"), (.num_categories, .int 2), (.data_path, .str "m/"),
          (.shape, .tuple [5])])) = some m ∧
      m.rbmForward ⟨784, 200, P⟩ (List.ofFn x) = some (rbmForward P x) := by
  obtain ⟨ts, hts⟩ : ∃ ts, rbmTrainSec "mnist" 2 200 = some ts := ⟨_, rfl⟩
  refine ⟨ts, hts, fun P mean x => ?_⟩
  obtain ⟨-, ms, -, h2, -, -, h5, -, h7, -⟩ := rbm_sampled_as_trained hts mean
    (fun _ : Fin 1 => (⟨784, 200, P⟩ : RbmArrays)) (fun _ => rbmSave ts mean fun _ : Fin 1 => (⟨784, 200, P⟩ : RbmArrays))
    (dir := "m/") (by decide) rfl
    (Sec.ofList [(.name, .str "rbm"), (.num_categories, .int 2), (.data_path, .str "m/"), (.shape, .tuple [5])]) rfl rfl
  exact ⟨ms, h2, rbm_forward_value h5 h7 P x⟩

/-- The section of a trained RBM with an empty `data_path` gives a model, without parameters, beside a folder that has some. -/
example : ∃ ts, rbmTrainSec "mnist" 2 200 = some ts ∧
    ∃ m, buildRbm (fun _ => rbmSave ts [] fun _ : Fin 1 => ()) (ts.set (.run .data_path) (.run (.str ""))) = some m ∧
      m.params = none := by
  obtain ⟨ts, h⟩ : ∃ ts, rbmTrainSec "mnist" 2 200 = some ts := ⟨_, rfl⟩
  obtain ⟨m, hm⟩ : ∃ m, buildRbm (fun _ => rbmSave ts [] fun _ : Fin 1 => ())
      (ts.set (.run .data_path) (.run (.str ""))) = some m := by cases h; exact ⟨_, rfl⟩
  exact ⟨ts, h, m, hm, ((deep_empty_path _ (fun _ => ⟨none, none⟩) _ (set_same _ _ _)).2.2.1 _ hm).1⟩

/-- A folder for four categories, loaded by a run for two. -/
example : ∃ ts, rbmTrainSec "mnist" 4 200 = some ts ∧
    ∃ m, buildRbm (fun _ => rbmSave ts [] fun _ : Fin 1 => ())
        (DeepSec.ofRun (Sec.ofList [(.num_categories, .int 2), (.data_path, .str "m/")])) = some m ∧
      ∀ a x, m.rbmForward a x = none := by
  obtain ⟨ts, h⟩ : ∃ ts, rbmTrainSec "mnist" 4 200 = some ts := ⟨_, rfl⟩
  obtain ⟨m, hm⟩ : ∃ m, buildRbm (fun _ => rbmSave ts [] fun _ : Fin 1 => ())
      (DeepSec.ofRun (Sec.ofList [(.num_categories, .int 2), (.data_path, .str "m/")])) = some m := by
    cases h; exact ⟨_, rfl⟩
  exact ⟨ts, h, m, hm, (rbm_folder_categories _ (dir := "m/") (by decide) rfl (c := 4) (by decide)
    (by cases h; rfl) _ rfl rfl hm).2⟩

end Discs
