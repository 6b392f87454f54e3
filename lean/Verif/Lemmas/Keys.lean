import Verif.Model.Keys

/-! # Lemmas about derived keys -/

namespace Discs

open Spec

theorem Spec.Ancestor.refl (a : Key) : Ancestor a a := ⟨rfl, List.prefix_refl _⟩

theorem Spec.Ancestor.trans {a b c : Key} (h : Ancestor a b) (h' : Ancestor b c) : Ancestor a c :=
  ⟨h.1.trans h'.1, h.2.trans h'.2⟩

theorem ancestor_split (k : Key) (n i : ℕ) : Ancestor k (splitKey k n i) :=
  ⟨rfl, List.prefix_append _ _⟩

theorem ancestor_fold (k : Key) (d : ℕ) : Ancestor k (foldKey k d) :=
  ⟨rfl, List.prefix_append _ _⟩

theorem Spec.Unrelated.symm {a b : Key} (h : Unrelated a b) : Unrelated b a := ⟨h.2, h.1⟩

/-- Two ancestors of a key are related. -/
theorem Spec.Ancestor.total {a b c : Key} (ha : Ancestor a c) (hb : Ancestor b c) :
    Ancestor a b ∨ Ancestor b a := by
  rcases List.prefix_or_prefix_of_prefix ha.2 hb.2 with h | h
  · exact Or.inl ⟨ha.1.trans hb.1.symm, h⟩
  · exact Or.inr ⟨hb.1.trans ha.1.symm, h⟩

/-- Whatever is derived from unrelated keys is unrelated. -/
theorem Spec.Unrelated.mono {a b a' b' : Key} (h : Unrelated a b) (ha : Ancestor a a')
    (hb : Ancestor b b') : Unrelated a' b' := by
  constructor
  · intro h'
    rcases Ancestor.total (ha.trans h') hb with h1 | h1
    · exact h.1 h1
    · exact h.2 h1
  · intro h'
    rcases Ancestor.total ha (hb.trans h') with h1 | h1
    · exact h.1 h1
    · exact h.2 h1

theorem unrelated_of_ops {s : ℕ} {p : List KeyOp} {o o' : KeyOp} (h : o ≠ o') :
    Unrelated ⟨s, p ++ [o]⟩ ⟨s, p ++ [o']⟩ := by
  have key : ∀ {o o' : KeyOp}, o ≠ o' → ¬ (p ++ [o]) <+: (p ++ [o']) := by
    intro o o' h hp
    rw [List.prefix_append_right_inj] at hp
    simp at hp
    exact h hp
  exact ⟨fun h' => key h h'.2, fun h' => key h.symm h'.2⟩

theorem unrelated_split (k : Key) {n i j : ℕ} (h : i ≠ j) :
    Unrelated (splitKey k n i) (splitKey k n j) :=
  unrelated_of_ops (by simpa using h)

theorem unrelated_split_n (k : Key) {n m i j : ℕ} (h : n ≠ m) :
    Unrelated (splitKey k n i) (splitKey k m j) :=
  unrelated_of_ops (by simp [h])

theorem unrelated_fold (k : Key) {d e : ℕ} (h : d ≠ e) : Unrelated (foldKey k d) (foldKey k e) :=
  unrelated_of_ops (by simpa using h)

theorem unrelated_split_fold (k : Key) (n i d : ℕ) :
    Unrelated (splitKey k n i) (foldKey k d) :=
  unrelated_of_ops (by simp)

theorem unrelated_seed {s t : ℕ} (h : s ≠ t) : Unrelated (prngKey s) (prngKey t) :=
  ⟨fun h' => h h'.1, fun h' => h h'.1.symm⟩

theorem not_ancestor_split_self (k : Key) (n i : ℕ) : ¬ Ancestor (splitKey k n i) k := by
  rintro ⟨_, h⟩
  have := h.length_le
  simp only [splitKey, List.length_append, List.length_singleton] at this
  omega

theorem not_ancestor_fold_self (k : Key) (d : ℕ) : ¬ Ancestor (foldKey k d) k := by
  rintro ⟨_, h⟩
  have := h.length_le
  simp only [foldKey, List.length_append, List.length_singleton] at this
  omega

/-! ## Lists of consumed keys -/

/-- Every key of the list is derived from `k`. -/
def Under (k : Key) (l : List Key) : Prop := ∀ a ∈ l, Ancestor k a

theorem Under.mono {k k' : Key} {l : List Key} (h : Ancestor k k') (hl : Under k' l) : Under k l :=
  fun a ha => h.trans (hl a ha)

theorem Under.append {k : Key} {l m : List Key} (h : Under k l) (h' : Under k m) :
    Under k (l ++ m) := fun a ha => (List.mem_append.1 ha).elim (h a) (h' a)

theorem Under.cons {k a : Key} {m : List Key} (h : Ancestor k a) (h' : Under k m) :
    Under k (a :: m) := fun b hb => (List.mem_cons.1 hb).elim (fun e => e ▸ h) (h' b)

theorem Under.nil (k : Key) : Under k [] := fun a ha => by simp at ha

theorem Under.flatMap {ι : Type*} {k : Key} {l : List ι} {f : ι → List Key}
    (h : ∀ i ∈ l, Under k (f i)) : Under k (l.flatMap f) := by
  intro a ha
  obtain ⟨i, hi, hia⟩ := List.mem_flatMap.1 ha
  exact h i hi a hia

theorem singleUse_nil : SingleUse [] := List.Pairwise.nil

theorem singleUse_singleton (k : Key) : SingleUse [k] := List.pairwise_singleton _ _

theorem singleUse_append {l m : List Key} (hl : SingleUse l) (hm : SingleUse m)
    (h : ∀ a ∈ l, ∀ b ∈ m, Unrelated a b) : SingleUse (l ++ m) :=
  List.pairwise_append.2 ⟨hl, hm, h⟩

/-- Two lists below unrelated keys. -/
theorem singleUse_append_under {l m : List Key} {r s : Key} (hl : SingleUse l) (hm : SingleUse m)
    (hrs : Unrelated r s) (hr : Under r l) (hs : Under s m) : SingleUse (l ++ m) :=
  singleUse_append hl hm fun a ha b hb => hrs.mono (hr a ha) (hs b hb)

theorem singleUse_flatMap {ι : Type*} {l : List ι} {f : ι → List Key} {root : ι → Key}
    (hl : l.Pairwise fun i j => Unrelated (root i) (root j))
    (hf : ∀ i ∈ l, SingleUse (f i)) (hu : ∀ i ∈ l, Under (root i) (f i)) :
    SingleUse (l.flatMap f) := by
  unfold SingleUse
  rw [List.pairwise_flatMap]
  refine ⟨hf, ?_⟩
  have := List.Pairwise.and_mem.1 hl
  refine this.imp ?_
  rintro i j ⟨hi, hj, h⟩ a ha b hb
  exact h.mono (hu i hi a ha) (hu j hj b hb)

theorem range_split_unrelated (k : Key) (n m : ℕ) :
    (List.range n).Pairwise fun i j => Unrelated (splitKey k m i) (splitKey k m j) :=
  List.nodup_range.imp fun h => unrelated_split k h

/-- A function that consumes keys and behaves when given any key: it obeys the rule and stays below
the key it is given. -/
def Tidy (f : Key → List Key) : Prop := ∀ k, SingleUse (f k) ∧ Under k (f k)

/-- It moreover consumes only keys that it has split off. -/
def Splits (f : Key → List Key) : Prop :=
  ∀ k, ∀ a ∈ f k, ∃ n i, Ancestor (splitKey k n i) a

theorem tidy_splits_flatMap {f : Key → List Key} (hf : Tidy f) (k : Key) (n : ℕ) :
    SingleUse ((List.range n).flatMap fun i => f (splitKey k n i)) :=
  singleUse_flatMap (range_split_unrelated k n n) (fun _ _ => (hf _).1) (fun _ _ => (hf _).2)

theorem under_splits_flatMap {f : Key → List Key} (hf : Tidy f) (k : Key) (n : ℕ) :
    Under k ((List.range n).flatMap fun i => f (splitKey k n i)) :=
  Under.flatMap fun _ _ => (hf _).2.mono (ancestor_split _ _ _)

theorem mem_splits_flatMap {f : Key → List Key} (hf : Tidy f) {k : Key} {n : ℕ} {a : Key}
    (ha : a ∈ (List.range n).flatMap fun i => f (splitKey k n i)) :
    ∃ i, Ancestor (splitKey k n i) a := by
  obtain ⟨i, _, hi⟩ := List.mem_flatMap.1 ha
  exact ⟨i, (hf _).2 a hi⟩

/-! ## The step loop -/

theorem loopKeys_snd (n : ℕ) (step : Key → List Key) (steps : List ℕ) (k : Key) :
    (loopKeys n step steps k).2 = k ∨ ∃ d, Ancestor (foldKey k d) (loopKeys n step steps k).2 := by
  induction steps generalizing k with
  | nil => exact Or.inl rfl
  | cons s rest ih =>
    refine Or.inr ⟨s, ?_⟩
    rcases ih (foldKey k s) with h | ⟨d, h⟩
    · simp only [loopKeys, h]; exact Ancestor.refl _
    · exact (ancestor_fold _ _).trans h

theorem loopKeys_under_fold {n : ℕ} {step : Key → List Key} (hstep : Tidy step) (steps : List ℕ)
    (k : Key) : ∀ a ∈ (loopKeys n step steps k).1, ∃ d, Ancestor (foldKey k d) a := by
  induction steps generalizing k with
  | nil => simp [loopKeys]
  | cons s rest ih =>
    intro a ha
    simp only [loopKeys, List.mem_append] at ha
    refine ⟨s, ?_⟩
    rcases ha with ha | ha
    · exact under_splits_flatMap hstep _ n a ha
    · obtain ⟨d, h⟩ := ih _ a ha
      exact (ancestor_fold _ _).trans h

theorem loopKeys_fst_snd {n : ℕ} {step : Key → List Key} (hstep : Tidy step) (steps : List ℕ)
    (k : Key) :
    ∀ a ∈ (loopKeys n step steps k).1, ∀ d,
      Unrelated a (foldKey (loopKeys n step steps k).2 d) := by
  induction steps generalizing k with
  | nil => simp [loopKeys]
  | cons s rest ih =>
    intro a ha d
    simp only [loopKeys, List.mem_append] at ha
    rcases ha with ha | ha
    · obtain ⟨i, hi⟩ := mem_splits_flatMap hstep ha
      simp only [loopKeys]
      rcases loopKeys_snd n step rest (foldKey k s) with h | ⟨e, h⟩
      · rw [h]
        exact (unrelated_split_fold _ _ _ _).mono hi (Ancestor.refl _)
      · exact (unrelated_split_fold _ _ _ _).mono hi (h.trans (ancestor_fold _ _))
    · exact ih _ a ha d

theorem loopKeys_singleUse {n : ℕ} {step : Key → List Key} (hstep : Tidy step) (steps : List ℕ)
    (k : Key) : SingleUse (loopKeys n step steps k).1 := by
  induction steps generalizing k with
  | nil => exact singleUse_nil
  | cons s rest ih =>
    simp only [loopKeys]
    refine singleUse_append (tidy_splits_flatMap hstep _ n) (ih _) ?_
    intro a ha b hb
    obtain ⟨i, hi⟩ := mem_splits_flatMap hstep ha
    obtain ⟨d, hd⟩ := loopKeys_under_fold hstep rest _ b hb
    exact (unrelated_split_fold _ _ _ _).mono hi hd

theorem loopKeys_under {n : ℕ} {step : Key → List Key} (hstep : Tidy step) (steps : List ℕ)
    (k : Key) : Under k (loopKeys n step steps k).1 := fun a ha => by
  obtain ⟨d, hd⟩ := loopKeys_under_fold hstep steps k a ha
  exact (ancestor_fold _ _).trans hd

theorem textLoopKeys_under_fold {n L : ℕ} {step : Key → List Key} (hstep : Tidy step) (r : ℕ)
    (k : Key) : ∀ a ∈ textLoopKeys n L step r k, ∃ d, Ancestor (foldKey k d) a := by
  induction r generalizing k with
  | zero => simp [textLoopKeys]
  | succ r ih =>
    intro a ha
    simp only [textLoopKeys, List.mem_append] at ha
    rcases ha with ha | ha
    · exact loopKeys_under_fold hstep _ _ a ha
    · obtain ⟨d, hd⟩ := ih _ a ha
      rcases loopKeys_snd n step (stepNumbers L) k with h | ⟨e, h⟩
      · rw [h] at hd; exact ⟨d, hd⟩
      · exact ⟨e, h.trans ((ancestor_fold _ _).trans hd)⟩

theorem textLoopKeys_singleUse {n L : ℕ} {step : Key → List Key} (hstep : Tidy step) (r : ℕ)
    (k : Key) : SingleUse (textLoopKeys n L step r k) := by
  induction r generalizing k with
  | zero => exact singleUse_nil
  | succ r ih =>
    simp only [textLoopKeys]
    refine singleUse_append (loopKeys_singleUse hstep _ _) (ih _) ?_
    intro a ha b hb
    obtain ⟨d, hd⟩ := textLoopKeys_under_fold hstep r _ b hb
    exact (loopKeys_fst_snd hstep _ _ a ha d).mono (Ancestor.refl _) hd

theorem ebmLoopKeys_under_fold {step : Key → List Key} (hstep : Tidy step) (steps : List ℕ)
    (k : Key) : ∀ a ∈ ebmLoopKeys step steps k, ∃ d, Ancestor (foldKey k d) a := by
  induction steps generalizing k with
  | nil => simp [ebmLoopKeys]
  | cons s rest ih =>
    intro a ha
    simp only [ebmLoopKeys, List.mem_append] at ha
    refine ⟨s, ?_⟩
    rcases ha with ha | ha
    · exact (hstep _).2 a ha
    · obtain ⟨d, hd⟩ := ih _ a ha
      exact (ancestor_fold _ _).trans hd

theorem ebmLoopKeys_singleUse {step : Key → List Key} (hstep : Tidy step) (hsp : Splits step)
    (steps : List ℕ) (k : Key) : SingleUse (ebmLoopKeys step steps k) := by
  induction steps generalizing k with
  | nil => exact singleUse_nil
  | cons s rest ih =>
    simp only [ebmLoopKeys]
    refine singleUse_append (hstep _).1 (ih _) ?_
    intro a ha b hb
    obtain ⟨n, i, hi⟩ := hsp _ a ha
    obtain ⟨d, hd⟩ := ebmLoopKeys_under_fold hstep rest _ b hb
    exact (unrelated_split_fold _ _ _ _).mono hi hd

theorem trainLoopKeys_under_fold {ndev pcd : ℕ} {step : Key → List Key} (hstep : Tidy step)
    (steps : List ℕ) (k : Key) :
    ∀ a ∈ trainLoopKeys ndev pcd step steps k, ∃ d, Ancestor (foldKey k d) a := by
  induction steps generalizing k with
  | nil => simp [trainLoopKeys]
  | cons s rest ih =>
    intro a ha
    simp only [trainLoopKeys, List.mem_append] at ha
    refine ⟨s, ?_⟩
    rcases ha with ha | ha
    · exact (ancestor_split _ _ _).trans (loopKeys_under hstep _ _ a ha)
    · obtain ⟨d, hd⟩ := ih _ a ha
      exact (ancestor_split _ _ _).trans ((ancestor_fold _ _).trans hd)

theorem trainLoopKeys_singleUse {ndev pcd : ℕ} {step : Key → List Key} (hstep : Tidy step)
    (steps : List ℕ) (k : Key) : SingleUse (trainLoopKeys ndev pcd step steps k) := by
  induction steps generalizing k with
  | nil => exact singleUse_nil
  | cons s rest ih =>
    simp only [trainLoopKeys]
    refine singleUse_append (loopKeys_singleUse hstep _ _) (ih _) ?_
    intro a ha b hb
    obtain ⟨d, hd⟩ := trainLoopKeys_under_fold hstep rest _ b hb
    exact (unrelated_split _ (by decide : (1 : ℕ) ≠ 0)).mono
      (loopKeys_under hstep _ _ a ha) ((ancestor_fold _ _).trans hd)

/-! ## Samplers and models -/

theorem roundKeys_tidy (r : ℕ) : Tidy (roundKeys r) := by
  induction r with
  | zero => exact fun k => ⟨singleUse_nil, Under.nil k⟩
  | succ r ih =>
    intro k
    refine ⟨?_, Under.cons (ancestor_split _ _ _) ((ih _).2.mono (ancestor_split _ _ _))⟩
    refine List.pairwise_cons.2 ⟨fun b hb => ?_, (ih _).1⟩
    exact (unrelated_split k (by decide : (0 : ℕ) ≠ 1)).mono (Ancestor.refl _) ((ih _).2 b hb)

theorem oneDraw_tidy : Tidy oneDraw := fun k =>
  ⟨singleUse_singleton k, Under.cons (Ancestor.refl k) (Under.nil k)⟩

theorem proposeAccept_tidy {f : Key → List Key} (hf : Tidy f) : Tidy (proposeAcceptKeys f) :=
  fun k =>
  ⟨singleUse_append_under (hf _).1 (singleUse_singleton _)
      (unrelated_split k (by decide : (0 : ℕ) ≠ 1)) (hf _).2
      (Under.cons (Ancestor.refl _) (Under.nil _)),
    ((hf _).2.mono (ancestor_split _ _ _)).append
      (Under.cons (ancestor_split _ _ _) (Under.nil _))⟩

theorem proposeAccept_splits {f : Key → List Key} (hf : ∀ k, Under k (f k)) :
    Splits (proposeAcceptKeys f) := by
  intro k a ha
  simp only [proposeAcceptKeys, List.mem_append, List.mem_singleton] at ha
  rcases ha with ha | rfl
  · exact ⟨2, 0, hf _ a ha⟩
  · exact ⟨2, 1, Ancestor.refl _⟩

theorem rbmBlockGibbs_tidy : Tidy rbmBlockGibbsKeys := fun k =>
  ⟨singleUse_append_under (l := [splitKey k 2 0]) (singleUse_singleton _) (singleUse_singleton _)
      (unrelated_split k (by decide : (0 : ℕ) ≠ 1)) (Under.cons (Ancestor.refl _) (Under.nil _))
      (Under.cons (Ancestor.refl _) (Under.nil _)),
    Under.cons (ancestor_split _ _ _) (Under.cons (ancestor_split _ _ _) (Under.nil _))⟩

theorem randomWalk_eq : randomWalkKeys = proposeAcceptKeys rbmBlockGibbsKeys := rfl

theorem hammingBall_tidy (B : ℕ) : Tidy (hammingBallKeys B) := by
  intro k
  have hmap : SingleUse ((List.range B).map fun b =>
      splitKey (splitKey (splitKey k 3 1) 2 0) B b) := by
    unfold SingleUse
    rw [List.pairwise_map]
    exact range_split_unrelated _ _ _
  have umap : Under (splitKey (splitKey k 3 1) 2 0) ((List.range B).map fun b =>
      splitKey (splitKey (splitKey k 3 1) 2 0) B b) := by
    intro a ha
    obtain ⟨b, _, rfl⟩ := List.mem_map.1 ha
    exact ancestor_split _ _ _
  have hu : SingleUse ([splitKey (splitKey k 3 1) 2 1] ++
      (List.range B).map (fun b => splitKey (splitKey (splitKey k 3 1) 2 0) B b)) :=
    singleUse_append_under (singleUse_singleton _) hmap
      (unrelated_split _ (by decide : (1 : ℕ) ≠ 0)) (Under.cons (Ancestor.refl _) (Under.nil _)) umap
  have uu : Under (splitKey k 3 1) ([splitKey (splitKey k 3 1) 2 1] ++
      (List.range B).map (fun b => splitKey (splitKey (splitKey k 3 1) 2 0) B b)) :=
    (Under.cons (ancestor_split _ _ _) (Under.nil _)).append (umap.mono (ancestor_split _ _ _))
  have h1 : SingleUse ([splitKey k 3 0] ++ ([splitKey (splitKey k 3 1) 2 1] ++
      (List.range B).map (fun b => splitKey (splitKey (splitKey k 3 1) 2 0) B b))) :=
    singleUse_append_under (singleUse_singleton _) hu
      (unrelated_split _ (by decide : (0 : ℕ) ≠ 1)) (Under.cons (Ancestor.refl _) (Under.nil _)) uu
  refine ⟨singleUse_append h1 (roundKeys_tidy B _).1 ?_, ?_⟩
  · intro a ha b hb
    have hb' := (roundKeys_tidy B (splitKey k 3 2)).2 b hb
    rcases List.mem_append.1 ha with ha | ha
    · rw [List.mem_singleton] at ha
      subst ha
      exact (unrelated_split _ (by decide : (0 : ℕ) ≠ 2)).mono (Ancestor.refl _) hb'
    · exact (unrelated_split _ (by decide : (1 : ℕ) ≠ 2)).mono (uu a ha) hb'
  · exact ((Under.cons (ancestor_split _ _ _) (Under.nil _)).append
      (uu.mono (ancestor_split _ _ _))).append
      ((roundKeys_tidy B _).2.mono (ancestor_split _ _ _))

theorem hammingBall_splits (B : ℕ) : Splits (hammingBallKeys B) := by
  intro k a ha
  simp only [hammingBallKeys, List.mem_append, List.mem_singleton, List.mem_map] at ha
  rcases ha with (rfl | rfl | ⟨b, _, rfl⟩) | ha
  · exact ⟨3, 0, Ancestor.refl _⟩
  · exact ⟨3, 1, ancestor_split _ _ _⟩
  · exact ⟨3, 1, (ancestor_split _ _ _).trans (ancestor_split _ _ _)⟩
  · exact ⟨3, 2, (roundKeys_tidy B _).2 a ha⟩

theorem normcutInit_tidy (n : ℕ) : Tidy (normcutInitKeys n) := fun k =>
  ⟨tidy_splits_flatMap rbmBlockGibbs_tidy k n, under_splits_flatMap rbmBlockGibbs_tidy k n⟩

theorem netParam_tidy : Tidy netParamKeys := fun k =>
  ⟨singleUse_append_under (l := [splitKey k 2 1]) (singleUse_singleton _) (singleUse_singleton _)
      (unrelated_split k (by decide : (1 : ℕ) ≠ 0)) (Under.cons (Ancestor.refl _) (Under.nil _))
      (Under.cons (Ancestor.refl _) (Under.nil _)),
    Under.cons (ancestor_split _ _ _) (Under.cons (ancestor_split _ _ _) (Under.nil _))⟩

theorem dataParam_tidy : Tidy dataParamKeys := fun k => ⟨singleUse_nil, Under.nil k⟩

theorem experimentInit_singleUse {numModels numSamples : ℕ} {params : Key → List Key}
    {init : ℕ → Key → List Key} (hp : Tidy params) (hi : ∀ n, Tidy (init n)) (k : Key) :
    SingleUse (experimentInitKeys numModels numSamples params init k) :=
  singleUse_append_under (tidy_splits_flatMap hp _ _) (hi _ _).1
    (unrelated_split k (by decide : (0 : ℕ) ≠ 1)) (under_splits_flatMap hp _ _) (hi _ _).2

theorem experimentInit_mem {numModels numSamples : ℕ} {params : Key → List Key}
    {init : ℕ → Key → List Key} (hp : Tidy params) (hi : ∀ n, Tidy (init n)) {k a : Key}
    (ha : a ∈ experimentInitKeys numModels numSamples params init k) :
    ∃ i, Ancestor (splitKey k 3 i) a := by
  rcases List.mem_append.1 ha with ha | ha
  · exact ⟨0, under_splits_flatMap hp _ _ a ha⟩
  · exact ⟨1, (hi _ _).2 a ha⟩

end Discs
