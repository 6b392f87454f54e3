import Verif.Lemmas.Keys
import Mathlib.Tactic.FinCases

/-!
# C77: random keys are used once

`Spec.SingleUse` is the rule: no key is consumed by two draws, and no key consumed by a draw is an
ancestor of another consumed key.  The theorems below decide, for every sampler, model and driver of
the library and for all numbers of steps, chains, devices, processes and instances, whether the rule
is obeyed.
-/

namespace Discs

open Spec

/-! ## Samplers -/

/-- One step of every sampler except the path auxiliary sampler with more than two categories obeys
the rule, and consumes only keys derived from the one it is given. -/
theorem samplerKeys_singleUse (B rounds : ℕ) (s : SamplerKind) (hs : s ≠ .pafsCategorical)
    (k : Key) : SingleUse (samplerKeys B rounds s k) ∧
      ∀ a ∈ samplerKeys B rounds s k, Ancestor k a := by
  have h : Tidy (samplerKeys B rounds s) := by
    cases s
    · exact oneDraw_tidy
    · exact oneDraw_tidy
    · exact rbmBlockGibbs_tidy
    · exact proposeAccept_tidy rbmBlockGibbs_tidy
    · exact oneDraw_tidy
    · exact proposeAccept_tidy oneDraw_tidy
    · exact proposeAccept_tidy (roundKeys_tidy rounds)
    · exact proposeAccept_tidy oneDraw_tidy
    · exact proposeAccept_tidy oneDraw_tidy
    · exact proposeAccept_tidy oneDraw_tidy
    · exact absurd rfl hs
    · exact hammingBall_tidy B
  exact h k

/-- Seven rounds of the adaptive GWG loop consume eight keys. -/
example : (samplerKeys 3 7 .gwgAdaptive (prngKey 5)).length = 8 ∧
    (samplerKeys 3 7 .hammingBall (prngKey 5)).length = 8 := by decide

/-- The path auxiliary sampler with more than two categories breaks it in every step: the values are
drawn with a key split off the one that has drawn the positions. -/
theorem pafsCategorical_not_singleUse (B rounds : ℕ) (k : Key) :
    ¬ SingleUse (samplerKeys B rounds .pafsCategorical k) := by
  intro h
  have := (List.pairwise_cons.1 h).1 (splitKey (splitKey k 2 0) 2 0) (by simp)
  exact this.1 (ancestor_split _ _ _)

/-- What remains true of it: the acceptance test is unrelated to both proposal draws, and all keys
are derived from the one given. -/
theorem pafsCategorical_singleUse_partial (B rounds : ℕ) (k : Key) :
    ∃ proposal acceptance, samplerKeys B rounds .pafsCategorical k = proposal ++ [acceptance] ∧
      (∀ a ∈ proposal, Unrelated a acceptance) ∧ proposal.length = 2 ∧
      ∀ a ∈ samplerKeys B rounds .pafsCategorical k, Ancestor k a := by
  refine ⟨pafsCategProposalKeys (splitKey k 2 0), splitKey k 2 1, rfl, ?_, rfl, ?_⟩
  · intro a ha
    have : Ancestor (splitKey k 2 0) a := by
      simp only [pafsCategProposalKeys, List.mem_cons, List.not_mem_nil, or_false] at ha
      rcases ha with rfl | rfl
      · exact Ancestor.refl _
      · exact ancestor_split _ _ _
    exact (unrelated_split k (by decide : (0 : ℕ) ≠ 1)).mono this (Ancestor.refl _)
  · intro a ha
    simp only [samplerKeys, pafsCategKeys, proposeAcceptKeys, pafsCategProposalKeys, List.mem_append,
      List.mem_cons, List.not_mem_nil, or_false] at ha
    rcases ha with (rfl | rfl) | rfl
    · exact ancestor_split _ _ _
    · exact (ancestor_split _ _ _).trans (ancestor_split _ _ _)
    · exact ancestor_split _ _ _

/-! ## Models -/

/-- Parameters and initial samples of all models other than the two FHMMs. -/
theorem modelKeys_singleUse (n : ℕ) (f : Key → List Key)
    (hf : f = oneDrawParamKeys ∨ f = dataParamKeys ∨ f = netParamKeys ∨ f = initKeys n ∨
      f = normcutInitKeys n) (k : Key) :
    SingleUse (f k) ∧ ∀ a ∈ f k, Ancestor k a := by
  have h : Tidy f := by
    rcases hf with rfl | rfl | rfl | rfl | rfl
    · exact oneDraw_tidy
    · exact dataParam_tidy
    · exact netParam_tidy
    · exact oneDraw_tidy
    · exact normcutInit_tidy n
  exact h k

/-- The binary FHMM obeys the rule exactly when its chain has at most one row. -/
theorem fhmmParamKeys_singleUse_iff (L : ℕ) (k : Key) : SingleUse (fhmmParamKeys L k) ↔ L ≤ 1 := by
  constructor
  · intro h
    by_contra hL
    obtain ⟨m, rfl⟩ : ∃ m, L = m + 2 := ⟨L - 2, by omega⟩
    have h1 : fhmmParamKeys (m + 2) k =
        splitKey k 4 0 :: (fhmmChainKeys m (splitKey (splitKey k 4 0) 2 0) ++
          [splitKey k 4 1, splitKey k 4 2, splitKey k 4 3]) := rfl
    rw [h1] at h
    have := (List.pairwise_cons.1 h).1 (splitKey (splitKey k 4 0) 2 0) (by
      cases m <;> simp [fhmmChainKeys])
    exact this.1 (ancestor_split _ _ _)
  · intro hL
    have h0 : L - 1 = 0 := by omega
    have h1 : fhmmParamKeys L k =
        (List.range 4).map (fun i => splitKey k 4 i) := by
      simp only [fhmmParamKeys, h0, fhmmChainKeys]
      rfl
    rw [h1]
    unfold SingleUse
    rw [List.pairwise_map]
    exact range_split_unrelated _ _ _

/-- The categorical FHMM breaks it for every chain length: `rng1` is consumed twice. -/
theorem cfhmmParamKeys_not_nodup (L : ℕ) (k : Key) :
    ¬ (cfhmmParamKeys L k).Nodup ∧ ¬ SingleUse (cfhmmParamKeys L k) := by
  have hmem : splitKey k 4 0 ∈ fhmmParamKeys L k := by
    unfold fhmmParamKeys
    cases h : L - 1 <;> simp [fhmmChainKeys]
  constructor
  · intro h
    exact (List.nodup_cons.1 h).1 hmem
  · intro h
    exact ((List.pairwise_cons.1 h).1 _ hmem).1 (Ancestor.refl _)

/-! ## Experiments

`params`, `init` and `step` stand for any functions that obey the rule for every key; by the theorems
above this covers every model except the FHMMs and every sampler except the categorical path
auxiliary one. -/

section Drivers

variable {params : Key → List Key} {init : ℕ → Key → List Key} {step : Key → List Key}

/-- A combinatorial run on one batch of instances obeys the rule, whatever the numbers of steps,
models, chains. -/
theorem coRun_singleUse
    (hp : ∀ k, SingleUse (params k) ∧ ∀ a ∈ params k, Ancestor k a)
    (hi : ∀ n k, SingleUse (init n k) ∧ ∀ a ∈ init n k, Ancestor k a)
    (hs : ∀ k, SingleUse (step k) ∧ ∀ a ∈ step k, Ancestor k a)
    (seed numModels numSamples n L : ℕ) :
    SingleUse (coRunKeys seed numModels numSamples n L params init step) := by
  refine singleUse_append (experimentInit_singleUse hp hi _) (loopKeys_singleUse hs _ _) ?_
  intro a ha b hb
  obtain ⟨i, hia⟩ := experimentInit_mem hp hi ha
  obtain ⟨d, hd⟩ := loopKeys_under_fold hs _ _ b hb
  exact (unrelated_split_fold _ _ _ _).mono hia hd

/-- A text infilling run, for any number of resamplings of the same sentence. -/
theorem textRun_singleUse
    (hp : ∀ k, SingleUse (params k) ∧ ∀ a ∈ params k, Ancestor k a)
    (hi : ∀ n k, SingleUse (init n k) ∧ ∀ a ∈ init n k, Ancestor k a)
    (hs : ∀ k, SingleUse (step k) ∧ ∀ a ∈ step k, Ancestor k a)
    (seed resamples n L : ℕ) :
    SingleUse (textRunKeys seed resamples n L params init step) := by
  refine singleUse_append (experimentInit_singleUse hp hi _) (textLoopKeys_singleUse hs _ _) ?_
  intro a ha b hb
  obtain ⟨i, hia⟩ := experimentInit_mem hp hi ha
  obtain ⟨d, hd⟩ := textLoopKeys_under_fold hs _ _ b hb
  exact (unrelated_split_fold _ _ _ _).mono hia hd

/-- A run of the EBM experiment over several devices. -/
theorem ebmParallelRun_singleUse
    (hp : ∀ k, SingleUse (params k) ∧ ∀ a ∈ params k, Ancestor k a)
    (hi : ∀ n k, SingleUse (init n k) ∧ ∀ a ∈ init n k, Ancestor k a)
    (hs : ∀ k, SingleUse (step k) ∧ ∀ a ∈ step k, Ancestor k a)
    (seed numSamples ndev L : ℕ) :
    SingleUse (ebmParallelRunKeys seed numSamples ndev L params init step) := by
  refine singleUse_append (singleUse_append_under (hp _).1 (hi _ _).1
    (unrelated_split _ (by decide : (0 : ℕ) ≠ 1)) (hp _).2 (hi _ _).2)
    (loopKeys_singleUse hs _ _) ?_
  intro a ha b hb
  obtain ⟨d, hd⟩ := loopKeys_under_fold hs _ _ b hb
  rcases List.mem_append.1 ha with ha | ha
  · exact (unrelated_split_fold _ _ _ _).mono ((hp _).2 a ha) hd
  · exact (unrelated_split_fold _ _ _ _).mono ((hi _ _).2 a ha) hd

/-- On one device the EBM experiment obeys the rule with the samplers that split the key they are
given before using it … -/
theorem ebmRun_singleUse
    (hp : ∀ k, SingleUse (params k) ∧ ∀ a ∈ params k, Ancestor k a)
    (hi : ∀ n k, SingleUse (init n k) ∧ ∀ a ∈ init n k, Ancestor k a)
    (B rounds : ℕ) (s : SamplerKind)
    (hs : s ∉ [.pafsCategorical, .gibbs, .blockGibbs, .locallyBalanced])
    (seed numSamples L : ℕ) :
    SingleUse (ebmRunKeys seed numSamples L params init (samplerKeys B rounds s)) := by
  have ht : Tidy (samplerKeys B rounds s) := fun k =>
    samplerKeys_singleUse B rounds s (by rintro rfl; simp at hs) k
  have hsp : Splits (samplerKeys B rounds s) := by
    cases s
    · simp at hs
    · simp at hs
    · exact proposeAccept_splits (f := oneDraw) fun k => (oneDraw_tidy k).2
    · exact proposeAccept_splits fun k => (rbmBlockGibbs_tidy k).2
    · simp at hs
    · exact proposeAccept_splits fun k => (oneDraw_tidy k).2
    · exact proposeAccept_splits fun k => (roundKeys_tidy rounds k).2
    · exact proposeAccept_splits fun k => (oneDraw_tidy k).2
    · exact proposeAccept_splits fun k => (oneDraw_tidy k).2
    · exact proposeAccept_splits fun k => (oneDraw_tidy k).2
    · simp at hs
    · exact hammingBall_splits B
  refine singleUse_append (singleUse_append_under (hp _).1 (hi _ _).1
    (unrelated_split _ (by decide : (0 : ℕ) ≠ 1)) (hp _).2 (hi _ _).2)
    (ebmLoopKeys_singleUse ht hsp _ _) ?_
  intro a ha b hb
  obtain ⟨d, hd⟩ := ebmLoopKeys_under_fold ht _ _ b hb
  rcases List.mem_append.1 ha with ha | ha
  · exact (unrelated_split_fold _ _ _ _).mono ((hp _).2 a ha) hd
  · exact (unrelated_split_fold _ _ _ _).mono ((hi _ _).2 a ha) hd

/-- … and breaks it with Gibbs, block Gibbs and the plain locally balanced sampler as soon as there
are two steps: the key consumed in one step is folded into the key of the next. -/
theorem ebmRun_not_singleUse (B rounds : ℕ) (s : SamplerKind)
    (hs : s ∈ [SamplerKind.gibbs, .blockGibbs, .locallyBalanced]) (seed numSamples L : ℕ)
    (hL : 2 ≤ L) :
    ¬ SingleUse (ebmRunKeys seed numSamples L params init (samplerKeys B rounds s)) := by
  obtain ⟨m, rfl⟩ : ∃ m, L = m + 2 := ⟨L - 2, by omega⟩
  have hstep : samplerKeys B rounds s = fun k => [k] := by
    simp only [List.mem_cons, List.not_mem_nil, or_false] at hs
    rcases hs with rfl | rfl | rfl <;> rfl
  intro h
  have h2 := (List.pairwise_append.1 h).2.1
  rw [hstep] at h2
  have h3 : ebmLoopKeys (fun k => [k]) (stepNumbers (m + 2)) (prngKey seed) =
      foldKey (prngKey seed) 1 :: foldKey (foldKey (prngKey seed) 1) 2 ::
        ebmLoopKeys (fun k => [k]) (List.range' 3 m) (foldKey (foldKey (prngKey seed) 1) 2) := rfl
  rw [h3] at h2
  exact ((List.pairwise_cons.1 h2).1 (foldKey (foldKey (prngKey seed) 1) 2) (by simp)).1
    (ancestor_fold _ _)

/-- The sampling experiment breaks the rule whenever a step is made: the key that chooses the saved
chains is the one all step keys are folded from. -/
theorem samplingRun_not_singleUse (seed numSamples n L : ℕ) (hn : 0 < n) (hL : 0 < L)
    (hs : ∀ k, SingleUse (step k) ∧ ∀ a ∈ step k, Ancestor k a) (hne : ∀ k, step k ≠ []) :
    ¬ SingleUse (samplingRunKeys seed numSamples n L params init step) := by
  obtain ⟨m, rfl⟩ : ∃ m, L = m + 1 := ⟨L - 1, by omega⟩
  intro h
  have h2 := (List.pairwise_append.1 (List.pairwise_append.1 h).2.1).2.2
  obtain ⟨a, ha⟩ := List.exists_mem_of_ne_nil _ (hne (splitKey (foldKey (prngKey 10) 1) n 0))
  have hmem : a ∈ (loopKeys n step (stepNumbers (m + 1)) (prngKey 10)).1 := by
    refine List.mem_append_left _ (List.mem_flatMap.2 ⟨0, by simpa using hn, ha⟩)
  exact (h2 (prngKey 10) (by simp) a hmem).1
    (loopKeys_under hs _ _ a hmem)

/-- Apart from that one draw it obeys the rule, unless it is started with the seed 10. -/
theorem samplingRun_singleUse_partial
    (hp : ∀ k, SingleUse (params k) ∧ ∀ a ∈ params k, Ancestor k a)
    (hi : ∀ n k, SingleUse (init n k) ∧ ∀ a ∈ init n k, Ancestor k a)
    (hs : ∀ k, SingleUse (step k) ∧ ∀ a ∈ step k, Ancestor k a)
    (seed numSamples n L : ℕ) (hseed : seed ≠ 10) :
    ∃ before after, samplingRunKeys seed numSamples n L params init step =
        before ++ [prngKey 10] ++ after ∧ SingleUse (before ++ after) := by
  refine ⟨experimentInitKeys 1 numSamples params init (prngKey seed) ++
      init 1 (splitKey (prngKey seed) 2 0), (loopKeys n step (stepNumbers L) (prngKey 10)).1, ?_, ?_⟩
  · simp [samplingRunKeys, samplingChainKeys]
  · have hinit : Under (prngKey seed) (experimentInitKeys 1 numSamples params init (prngKey seed)) :=
      fun a ha => (experimentInit_mem hp hi ha).elim fun i h => (ancestor_split _ _ _).trans h
    refine singleUse_append_under (singleUse_append (experimentInit_singleUse hp hi _) (hi _ _).1 ?_)
      (loopKeys_singleUse hs _ _) (unrelated_seed hseed) (hinit.append ?_) (loopKeys_under hs _ _)
    · intro a ha b hb
      obtain ⟨i, hia⟩ := experimentInit_mem hp hi ha
      exact (unrelated_split_n _ (by decide : (3 : ℕ) ≠ 2)).mono hia ((hi _ _).2 b hb)
    · exact Under.mono (ancestor_split _ _ _) (hi _ _).2

/-- Everything the sampling experiment draws after `x0_ess`, the chains included, is the same for all
seeds. -/
theorem samplingRun_ignores_seed (n L : ℕ) :
    ∃ tail, tail ≠ [] ∧ (∀ seed numSamples, samplingRunKeys seed numSamples n L params init step =
      experimentInitKeys 1 numSamples params init (prngKey seed) ++
        init 1 (splitKey (prngKey seed) 2 0) ++ tail) ∧
      ∀ a ∈ (loopKeys n step (stepNumbers L) (prngKey 10)).1, a ∈ tail :=
  ⟨[prngKey 10] ++ (loopKeys n step (stepNumbers L) (prngKey 10)).1, by simp,
    fun seed numSamples => by simp [samplingRunKeys, samplingChainKeys],
    fun a ha => List.mem_append_right _ ha⟩

/-- All batches of instances of a combinatorial experiment are run with the same keys, so that over
two batches every key is consumed twice. -/
theorem coResults_reuse (batches numModels numSamples n L : ℕ) (hb : 2 ≤ batches)
    (a : Key) (ha : a ∈ coRunKeys 0 numModels numSamples n L params init step) :
    2 ≤ (coResultKeys batches numModels numSamples n L params init step).count a ∧
      ¬ SingleUse (coResultKeys batches numModels numSamples n L params init step) := by
  obtain ⟨m, rfl⟩ : ∃ m, batches = m + 2 := ⟨batches - 2, by omega⟩
  have h : coResultKeys (m + 2) numModels numSamples n L params init step =
      coRunKeys 0 numModels numSamples n L params init step ++
        (coRunKeys 0 numModels numSamples n L params init step ++
          coResultKeys m numModels numSamples n L params init step) := by
    simp [coResultKeys, List.replicate_succ, preprocessSeed]
  have h1 := List.count_pos_iff.2 ha
  refine ⟨?_, ?_⟩
  · rw [h, List.count_append, List.count_append]; omega
  · rw [h]
    intro hu
    exact ((List.pairwise_append.1 hu).2.2 a ha a (List.mem_append_left _ ha)).1 (Ancestor.refl _)

/-- All sentences of the text experiment are run with the same keys although `get_results` counts `rnd_key` up: every key
of a sentence is consumed once per sentence. -/
theorem textResults_reuse (sents resamples n L : ℕ) (a : Key) :
    (textResultKeys sents resamples n L params init step).count a =
        sents * (textRunKeys 0 resamples n L params init step).count a ∧
      (2 ≤ sents → a ∈ textRunKeys 0 resamples n L params init step →
        ¬ SingleUse (textResultKeys sents resamples n L params init step)) := by
  have hc : ∀ m, (textResultKeys m resamples n L params init step).count a =
      m * (textRunKeys 0 resamples n L params init step).count a := by
    intro m
    simp [textResultKeys, List.count_flatMap, preprocessSeed, Function.comp_def]
  refine ⟨hc sents, fun h2 ha hu => ?_⟩
  have h1 := List.count_pos_iff.2 ha
  have hnd : (textResultKeys sents resamples n L params init step).Nodup :=
    List.Pairwise.imp (fun {x y} hab (e : x = y) => hab.1 (e ▸ Ancestor.refl _)) hu
  have := List.nodup_iff_count_le_one.1 hnd a
  rw [hc] at this
  have h3 := Nat.mul_le_mul h2 h1
  omega

/-! ## Training -/

/-- Training obeys the rule over all processes, devices, steps and persistent-chain updates. -/
theorem trainProcesses_singleUse
    (hs : ∀ k, SingleUse (step k) ∧ ∀ a ∈ step k, Ancestor k a)
    (P seed ndev pcd init0 total : ℕ) :
    SingleUse ((List.range P).flatMap (trainProcessKeys seed ndev pcd init0 total step)) := by
  refine singleUse_flatMap (root := fun p => foldKey (splitKey (prngKey seed) 2 0) p)
    (List.nodup_range.imp fun h => unrelated_fold _ h)
    (fun p _ => trainLoopKeys_singleUse hs _ _) fun p _ a ha => ?_
  obtain ⟨d, hd⟩ := trainLoopKeys_under_fold hs _ _ a ha
  exact (ancestor_fold _ _).trans hd

/-- A single process obeys it with its initialisation included. -/
theorem trainAll_singleUse_one
    (hp : ∀ k, SingleUse (params k) ∧ ∀ a ∈ params k, Ancestor k a)
    (hi : ∀ n k, SingleUse (init n k) ∧ ∀ a ∈ init n k, Ancestor k a)
    (hs : ∀ k, SingleUse (step k) ∧ ∀ a ∈ step k, Ancestor k a)
    (seed numSamples ndev pcd init0 total : ℕ) :
    SingleUse (trainAllKeys 1 seed numSamples ndev pcd init0 total params init step) := by
  have h : trainAllKeys 1 seed numSamples ndev pcd init0 total params init step =
      trainSetupKeys seed numSamples params init ++
        trainProcessKeys seed ndev pcd init0 total step 0 := by
    simp [trainAllKeys]
  rw [h]
  refine singleUse_append_under (r := splitKey (prngKey seed) 2 1) (s := splitKey (prngKey seed) 2 0)
    (singleUse_append_under (hp _).1 (hi _ _).1 (unrelated_split _ (by decide : (0 : ℕ) ≠ 1))
      (hp _).2 (Under.mono (ancestor_split _ _ _) (hi _ _).2))
    (trainLoopKeys_singleUse hs _ _) (unrelated_split _ (by decide : (1 : ℕ) ≠ 0)) ?_ ?_
  · exact (Under.mono (ancestor_split _ _ _) (hp _).2).append
      (Under.mono ((ancestor_split _ _ _).trans (ancestor_split _ _ _)) (hi _ _).2)
  · intro a ha
    obtain ⟨d, hd⟩ := trainLoopKeys_under_fold hs _ _ a ha
    exact (ancestor_fold _ _).trans ((ancestor_fold _ _).trans hd)

/-- Two processes consume the same keys for their initial persistent chains. -/
theorem trainAll_not_singleUse (P seed numSamples ndev pcd init0 total : ℕ) (hP : 2 ≤ P)
    (hne : ∀ n k, init n k ≠ []) :
    ¬ SingleUse (trainAllKeys P seed numSamples ndev pcd init0 total params init step) := by
  intro h
  have h1 := (List.pairwise_flatMap.1 h).2
  obtain ⟨a, ha⟩ := List.exists_mem_of_ne_nil _
    (hne numSamples (splitKey (splitKey (splitKey (prngKey seed) 2 1) 2 1) 2 0))
  have h2 := (List.pairwise_iff_getElem.1 h1) 0 1 (by simp; omega) (by simp; omega) (by omega)
  have hmem : a ∈ trainSetupKeys seed numSamples params init := List.mem_append_right _ ha
  exact (h2 a (List.mem_append_left _ hmem) a (List.mem_append_left _ hmem)).1 (Ancestor.refl _)

end Drivers

/-- `RngGen` delivers keys that obey the rule as long as the counter is advanced. -/
theorem rngGen_singleUse (base : Key) (cnt : ℕ) (incs : List ℕ) (h : ∀ c ∈ incs, 0 < c) :
    SingleUse (rngGenKeys base cnt incs) := by
  have hmem : ∀ (incs : List ℕ) (cnt : ℕ), (∀ c ∈ incs, 0 < c) →
      ∀ a ∈ rngGenKeys base cnt incs, ∃ d, cnt < d ∧ a = foldKey base d := by
    intro incs
    induction incs with
    | nil => simp [rngGenKeys]
    | cons c cs ih =>
      intro cnt h a ha
      rcases List.mem_cons.1 ha with rfl | ha
      · exact ⟨cnt + c, by have := h c (by simp); omega, rfl⟩
      · obtain ⟨d, hd, rfl⟩ := ih (cnt + c) (fun c' hc' => h c' (by simp [hc'])) a ha
        exact ⟨d, by omega, rfl⟩
  induction incs generalizing cnt with
  | nil => exact singleUse_nil
  | cons c cs ih =>
    refine List.pairwise_cons.2 ⟨fun a ha => ?_, ih _ fun c' hc' => h c' (by simp [hc'])⟩
    obtain ⟨d, hd, rfl⟩ := hmem cs _ (fun c' hc' => h c' (by simp [hc'])) a ha
    exact unrelated_fold _ (by omega)

/-- Advancing by nothing delivers the same key again. -/
theorem rngGen_advance_zero (base : Key) (cnt c : ℕ) :
    ¬ SingleUse (rngGenKeys base cnt [c, 0]) := by
  intro h
  exact ((List.pairwise_cons.1 h).1 _ (by simp [rngGenKeys])).1 (Ancestor.refl _)

/-- The hypotheses on `params`, `init`, `step` are met by the models and samplers of the library: a
NormCut run with GWG over 5 batches of chains and 1000 steps. -/
example : SingleUse (coRunKeys 0 3 60 5 1000 dataParamKeys normcutInitKeys
    (samplerKeys 20 4 .gwg)) :=
  coRun_singleUse (fun k => modelKeys_singleUse 0 _ (by simp) k)
    (fun n k => modelKeys_singleUse n _ (by simp) k)
    (fun k => samplerKeys_singleUse 20 4 .gwg (by decide) k) 0 3 60 5 1000

/-- Two steps of two calls each, with their keys. -/
example : coRunKeys 0 1 1 2 2 dataParamKeys initKeys (samplerKeys 1 1 .gibbs) =
    [⟨0, [.split 3 1]⟩, ⟨0, [.fold 1, .split 2 0]⟩, ⟨0, [.fold 1, .split 2 1]⟩,
      ⟨0, [.fold 1, .fold 2, .split 2 0]⟩, ⟨0, [.fold 1, .fold 2, .split 2 1]⟩] := by decide

end Discs
