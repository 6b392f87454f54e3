import Verif.Props.Experiment
import Verif.Props.Loader

/-!
# Properties C48, C49, C50, C51: combinatorial experiments
-/

namespace Discs

open Spec

variable {K X S V : Type*} {M B : ℕ}

/-! ### Row maximum and its position -/

theorem rowMax_isGreatest [NeZero B] (v : Fin B → ℝ) : IsGreatest (Set.range v) (rowMax v) := by
  have key : ∀ (l : List (Fin B)) (a : ℝ), a ∈ Set.range v →
      (l.foldl (fun a c => max a (v c)) a) ∈ Set.range v ∧
        a ≤ l.foldl (fun a c => max a (v c)) a ∧
        ∀ c ∈ l, v c ≤ l.foldl (fun a c => max a (v c)) a := by
    intro l
    induction l with
    | nil => exact fun a ha => ⟨ha, le_rfl, fun c hc => absurd hc (List.not_mem_nil)⟩
    | cons c l ih =>
      intro a ha
      have hm : max a (v c) ∈ Set.range v := by
        rcases max_choice a (v c) with h | h <;> rw [h]
        · exact ha
        · exact ⟨c, rfl⟩
      obtain ⟨h1, h2, h3⟩ := ih (max a (v c)) hm
      refine ⟨h1, (le_max_left _ _).trans h2, fun c' hc' => ?_⟩
      rcases List.mem_cons.1 hc' with rfl | hc'
      · exact (le_max_right _ _).trans h2
      · exact h3 c' hc'
  obtain ⟨h1, _, h3⟩ := key (List.finRange B) (v 0) ⟨0, rfl⟩
  refine ⟨h1, ?_⟩
  rintro _ ⟨c, rfl⟩
  exact h3 c (List.mem_finRange c)

theorem rowArgmax_spec [NeZero B] (v : Fin B → ℝ) (c : Fin B) : v c ≤ v (rowArgmax v) := by
  have key : ∀ (l : List (Fin B)) (a : Fin B),
      v a ≤ v (l.foldl (fun a c => if v a < v c then c else a) a) ∧
        ∀ c ∈ l, v c ≤ v (l.foldl (fun a c => if v a < v c then c else a) a) := by
    intro l
    induction l with
    | nil => exact fun a => ⟨le_rfl, fun c hc => absurd hc (List.not_mem_nil)⟩
    | cons c l ih =>
      intro a
      obtain ⟨h1, h2⟩ := ih (if v a < v c then c else a)
      have h3 : v a ≤ v (if v a < v c then c else a) ∧ v c ≤ v (if v a < v c then c else a) := by
        split_ifs with h
        · exact ⟨h.le, le_rfl⟩
        · exact ⟨le_rfl, not_lt.1 h⟩
      refine ⟨h3.1.trans h1, fun c' hc' => ?_⟩
      rcases List.mem_cons.1 hc' with rfl | hc'
      · exact h3.2.trans h1
      · exact h2 c' hc'
  exact (key (List.finRange B) 0).2 c (List.mem_finRange c)

theorem rowMax_eq_argmax [NeZero B] (v : Fin B → ℝ) : rowMax v = v (rowArgmax v) := by
  obtain ⟨⟨c, hc⟩, h⟩ := rowMax_isGreatest v
  exact le_antisymm (hc ▸ rowArgmax_spec v c) (h ⟨_, rfl⟩)

/-! ### C48 -/

/-- The plain iteration of the compiled step along the temperature schedule. -/
def CODriver.traj (d : CODriver K X S V M B) (k : K) (x : X) (s : S) (n : ℕ) : X × S :=
  trajectory d.foldIn (fun t : ℕ => d.stp (d.temp t)) k x s n

/-- The ratios an experiment gets to see for instance `m`: those of all its chains after the steps up to
`n` that are divisible by the logging interval. -/
def Spec.loggedRatios (d : CODriver K X S V M B) (logEvery : ℤ) (k : K) (x : X) (s : S) (n : ℕ)
    (m : Fin M) : Set ℝ :=
  {r | ∃ t : ℕ, 1 ≤ t ∧ t ≤ n ∧ logEvery ∣ t ∧ ∃ c, r = d.scores (d.traj k x s t).1 m c / d.ref m}

private noncomputable def coInit (M : ℕ) (zero : V) (k : K) (x : X) (s : S) : COVars K X S V M :=
  ⟨k, x, s, fun _ => 1 * -1000000000, fun _ => zero, []⟩

private noncomputable def coRun [NeZero B] (d : CODriver K X S V M B) (logEvery : ℤ) (zero : V) (k : K)
    (x : X) (s : S) (n : ℕ) : COVars K X S V M :=
  (pyRange 1 (n + 1)).foldl (coBody d logEvery) (coInit M zero k x s)

private theorem coChain_eq_coRun [NeZero B] (d : CODriver K X S V M B) (logEvery : ℤ) (L : ℕ) (ratio : ℝ)
    (h0 : 0 ≤ ratio) (h1 : ratio ≤ 1) (zero : V) (k : K) (x : X) (s : S) :
    coChain d logEvery L ratio zero k x s = coRun d logEvery zero k x s L := by
  obtain ⟨n, hn, -, hle⟩ := pyInt_bounds (L := L) h0 h1
  simp only [coChain, burnInLength, hn, coRun, coInit]
  rw [← List.foldl_append, pyRange_append (by omega) (by omega), add_comm (1 : ℤ)]

private theorem coRun_succ [NeZero B] (d : CODriver K X S V M B) (logEvery : ℤ) (zero : V) (k : K) (x : X)
    (s : S) (n : ℕ) :
    coRun d logEvery zero k x s (n + 1) = coBody d logEvery (coRun d logEvery zero k x s n) (n + 1) := by
  rw [coRun, coRun, Nat.cast_add, Nat.cast_one, pyRange_succ (by omega), List.foldl_append,
    List.foldl_cons, List.foldl_nil]

private theorem coRun_traj [NeZero B] (d : CODriver K X S V M B) (logEvery : ℤ) (zero : V) (k : K) (x : X)
    (s : S) (n : ℕ) :
    (coRun d logEvery zero k x s n).rng = keyAt d.foldIn k n ∧
      ((coRun d logEvery zero k x s n).x, (coRun d logEvery zero k x s n).state) = d.traj k x s n := by
  induction n with
  | zero => simp [coRun, pyRange_nil, coInit, keyAt, CODriver.traj, trajectory]
  | succ n ih =>
    obtain ⟨h1, h2⟩ := ih
    have hx := congrArg Prod.fst h2
    have hs := congrArg Prod.snd h2
    simp only at hx hs
    rw [coRun_succ]
    simp only [coBody, h1, hx, hs]
    refine ⟨rfl, ?_⟩
    simp only [CODriver.traj, trajectory, keyAt, Nat.cast_add, Nat.cast_one]

/-- What the body does to the best values. -/
private theorem coRun_best_succ [NeZero B] (d : CODriver K X S V M B) (logEvery : ℤ) (zero : V) (k : K)
    (x : X) (s : S) (n : ℕ) :
    let v := coRun d logEvery zero k x s n
    let v' := coRun d logEvery zero k x s (n + 1)
    let x' := (d.traj k x s (n + 1)).1
    (logEvery ∣ ((n + 1 : ℕ) : ℤ) →
      (∀ m, v'.best m = max (rowMax (d.scores x' m) / d.ref m) (v.best m)) ∧
      (∀ m, v'.bestSamples m = if rowMax (d.scores x' m) / d.ref m > v.best m then
        d.rows x' m (rowArgmax (d.scores x' m)) else v.bestSamples m) ∧
      v'.chain = v.chain ++ [maskedBest d.sampleIdx v'.best]) ∧
    (¬ logEvery ∣ ((n + 1 : ℕ) : ℤ) →
      v'.best = v.best ∧ v'.bestSamples = v.bestSamples ∧ v'.chain = v.chain) := by
  obtain ⟨h1, h2⟩ := coRun_traj d logEvery zero k x s n
  have h3 := congrArg Prod.fst (coRun_traj d logEvery zero k x s (n + 1)).2
  simp only at h3
  have hx := congrArg Prod.fst h2
  have hs := congrArg Prod.snd h2
  simp only at hx hs
  intro v v' x'
  have hx' : x' = (d.stp (d.temp ((n : ℤ) + 1)) (d.foldIn v.rng ((n : ℤ) + 1)) v.x v.state).1 := by
    show (d.traj k x s (n + 1)).1 = _
    rw [← h3, coRun_succ]
    simp only [coBody]
    rfl
  have hc : ((n + 1 : ℕ) : ℤ) = (n : ℤ) + 1 := by push_cast; ring
  rw [hc]
  have hv' : v' = coBody d logEvery v (n + 1) := coRun_succ d logEvery zero k x s n
  constructor
  · intro hd
    have hmod : ((n : ℤ) + 1) % logEvery = 0 := Int.emod_eq_zero_of_dvd hd
    rw [hv']
    simp only [coBody, if_pos hmod, coLog, ← hx', implies_true, and_self]
  · intro hd
    have hmod : ¬ ((n : ℤ) + 1) % logEvery = 0 := fun h => hd (Int.dvd_of_emod_eq_zero h)
    rw [hv']
    simp only [coBody, if_neg hmod, and_self]

private theorem logged_succ (d : CODriver K X S V M B) (logEvery : ℤ) (k : K) (x : X) (s : S) (n : ℕ)
    (m : Fin M) (r : ℝ) :
    r ∈ loggedRatios d logEvery k x s (n + 1) m ↔ r ∈ loggedRatios d logEvery k x s n m ∨
      (logEvery ∣ ((n + 1 : ℕ) : ℤ) ∧ ∃ c, r = d.scores (d.traj k x s (n + 1)).1 m c / d.ref m) := by
  constructor
  · rintro ⟨t, h1, h2, h3, h4⟩
    rcases Nat.lt_or_ge n t with h | h
    · obtain rfl : t = n + 1 := by omega
      exact Or.inr ⟨h3, h4⟩
    · exact Or.inl ⟨t, h1, h, h3, h4⟩
  · rintro (⟨t, h1, h2, h3, h4⟩ | ⟨h3, h4⟩)
    · exact ⟨t, h1, by omega, h3, h4⟩
    · exact ⟨n + 1, by omega, le_rfl, h3, h4⟩

private theorem coRun_best [NeZero B] (d : CODriver K X S V M B) (logEvery : ℤ) (zero : V) (k : K) (x : X)
    (s : S) (m : Fin M) (href : 0 < d.ref m) (n : ℕ) :
    IsGreatest (insert (-1000000000) (loggedRatios d logEvery k x s n m))
      ((coRun d logEvery zero k x s n).best m) := by
  induction n with
  | zero =>
    have : loggedRatios d logEvery k x s 0 m = ∅ := by
      ext r
      constructor
      · rintro ⟨t, h1, h2, -⟩; omega
      · exact fun h => absurd h (Set.notMem_empty _)
    rw [this]
    simp [coRun, pyRange_nil, coInit]
  | succ n ih =>
    obtain ⟨hmem, hub⟩ := ih
    obtain ⟨hy, hno⟩ := coRun_best_succ d logEvery zero k x s n
    by_cases hd : logEvery ∣ ((n + 1 : ℕ) : ℤ)
    · rw [(hy hd).1 m]
      set x' := (d.traj k x s (n + 1)).1
      obtain ⟨⟨c, hc⟩, hge⟩ := rowMax_isGreatest (d.scores x' m)
      constructor
      · rcases max_choice (rowMax (d.scores x' m) / d.ref m) ((coRun d logEvery zero k x s n).best m)
          with h | h <;> rw [h]
        · refine Or.inr ((logged_succ ..).2 (Or.inr ⟨hd, c, by rw [hc]⟩))
        · rcases hmem with h' | h'
          · exact Or.inl h'
          · exact Or.inr ((logged_succ ..).2 (Or.inl h'))
      · rintro r (rfl | hr)
        · exact (hub (Or.inl rfl)).trans (le_max_right _ _)
        · rcases (logged_succ ..).1 hr with h' | ⟨-, c', rfl⟩
          · exact (hub (Or.inr h')).trans (le_max_right _ _)
          · refine le_trans ?_ (le_max_left _ _)
            exact div_le_div_of_nonneg_right (hge ⟨c', rfl⟩) href.le
    · rw [(hno hd).1]
      have : loggedRatios d logEvery k x s (n + 1) m = loggedRatios d logEvery k x s n m := by
        ext r
        rw [logged_succ]
        exact ⟨fun h => h.resolve_right fun h' => hd h'.1, Or.inl⟩
      rw [this]
      exact ⟨hmem, hub⟩

/-- C48.  The best ratio reported for an instance with positive reference value is the largest ratio over
all its chains and all logged steps (with the starting value `-1e9` as a floor), whatever the burn-in
ratio. -/
theorem co_best [NeZero B] (d : CODriver K X S V M B) (logEvery : ℤ) (L : ℕ) (ratio : ℝ)
    (h0 : 0 ≤ ratio) (h1 : ratio ≤ 1) (zero : V) (k : K) (x : X) (s : S) (m : Fin M)
    (href : 0 < d.ref m) :
    IsGreatest (insert (-1000000000) (loggedRatios d logEvery k x s L m))
      ((coChain d logEvery L ratio zero k x s).best m) := by
  rw [coChain_eq_coRun d logEvery L ratio h0 h1]
  exact coRun_best d logEvery zero k x s m href L

/-- C48.  Once something better than the floor has been logged, the floor plays no role. -/
theorem co_best_exact [NeZero B] (d : CODriver K X S V M B) (logEvery : ℤ) (L : ℕ) (ratio : ℝ)
    (h0 : 0 ≤ ratio) (h1 : ratio ≤ 1) (zero : V) (k : K) (x : X) (s : S) (m : Fin M)
    (href : 0 < d.ref m) (hex : ∃ r ∈ loggedRatios d logEvery k x s L m, -1000000000 < r) :
    IsGreatest (loggedRatios d logEvery k x s L m)
      ((coChain d logEvery L ratio zero k x s).best m) := by
  obtain ⟨hm, hu⟩ := co_best d logEvery L ratio h0 h1 zero k x s m href
  obtain ⟨r, hr, hlt⟩ := hex
  refine ⟨hm.resolve_left fun h => ?_, fun r' hr' => hu (Or.inr hr')⟩
  have := hu (Or.inr hr)
  rw [h] at this
  exact absurd this (not_le.2 hlt)

private theorem coRun_sample [NeZero B] (d : CODriver K X S V M B) (logEvery : ℤ) (zero : V) (k : K) (x : X)
    (s : S) (m : Fin M) (n : ℕ) :
    let v := coRun d logEvery zero k x s n
    v.best m = -1000000000 ∨ ∃ t : ℕ, 1 ≤ t ∧ t ≤ n ∧ logEvery ∣ t ∧ ∃ c,
      v.bestSamples m = d.rows (d.traj k x s t).1 m c ∧
        v.best m = d.scores (d.traj k x s t).1 m c / d.ref m := by
  induction n with
  | zero => left; simp [coRun, pyRange_nil, coInit]
  | succ n ih =>
    obtain ⟨hy, hno⟩ := coRun_best_succ d logEvery zero k x s n
    intro v
    by_cases hd : logEvery ∣ ((n + 1 : ℕ) : ℤ)
    · have hb := (hy hd).1 m
      have hs := (hy hd).2.1 m
      by_cases hgt : rowMax (d.scores (d.traj k x s (n + 1)).1 m) / d.ref m >
          (coRun d logEvery zero k x s n).best m
      · right
        rw [if_pos hgt] at hs
        refine ⟨n + 1, by omega, le_rfl, hd, _, hs, ?_⟩
        rw [hb, max_eq_left hgt.le, rowMax_eq_argmax]
      · rw [if_neg hgt] at hs
        rw [max_eq_right (not_lt.1 hgt)] at hb
        rcases ih with h | ⟨t, a, b, c, cc, e, f⟩
        · exact Or.inl (hb.trans h)
        · exact Or.inr ⟨t, a, by omega, c, cc, hs.trans e, hb.trans f⟩
    · obtain ⟨hb, hs, -⟩ := hno hd
      rcases ih with h | ⟨t, a, b, c, cc, e, f⟩
      · exact Or.inl ((congrFun hb m).trans h)
      · exact Or.inr ⟨t, a, by omega, c, cc, (congrFun hs m).trans e, (congrFun hb m).trans f⟩

/-- C48.  The reported best sample of an instance is one that was held by one of its chains at a logged
step, and its own score divided by the reference is the reported best ratio. -/
theorem co_best_sample [NeZero B] (d : CODriver K X S V M B) (logEvery : ℤ) (L : ℕ) (ratio : ℝ)
    (h0 : 0 ≤ ratio) (h1 : ratio ≤ 1) (zero : V) (k : K) (x : X) (s : S) (m : Fin M)
    (href : 0 < d.ref m) (hex : ∃ r ∈ loggedRatios d logEvery k x s L m, -1000000000 < r) :
    let v := coChain d logEvery L ratio zero k x s
    ∃ t : ℕ, 1 ≤ t ∧ t ≤ L ∧ logEvery ∣ t ∧ ∃ c,
      v.bestSamples m = d.rows (d.traj k x s t).1 m c ∧
        v.best m = d.scores (d.traj k x s t).1 m c / d.ref m := by
  have hg := co_best d logEvery L ratio h0 h1 zero k x s m href
  rw [coChain_eq_coRun d logEvery L ratio h0 h1] at hg ⊢
  obtain ⟨r, hr, hlt⟩ := hex
  refine (coRun_sample d logEvery zero k x s m L).resolve_left fun h => ?_
  have := hg.2 (Or.inr hr)
  rw [h] at this
  exact absurd this (not_le.2 hlt)

/-- C48 (refuted: results below the floor).  If nothing better than `-1e9` is ever logged, the reported sample is the array of
zeros with which the program starts, whether or not any chain was ever there. -/
theorem co_best_floor [NeZero B] (d : CODriver K X S V M B) (logEvery : ℤ) (L : ℕ) (ratio : ℝ)
    (h0 : 0 ≤ ratio) (h1 : ratio ≤ 1) (zero : V) (k : K) (x : X) (s : S) (m : Fin M)
    (href : 0 < d.ref m) (hall : ∀ r ∈ loggedRatios d logEvery k x s L m, r ≤ -1000000000) :
    (coChain d logEvery L ratio zero k x s).bestSamples m = zero ∧
      (coChain d logEvery L ratio zero k x s).best m = -1000000000 := by
  rw [coChain_eq_coRun d logEvery L ratio h0 h1]
  have hb : ∀ n ≤ L, (coRun d logEvery zero k x s n).best m = -1000000000 := by
    intro n hn
    obtain ⟨hm, hu⟩ := coRun_best d logEvery zero k x s m href n
    refine le_antisymm ?_ (hu (Or.inl rfl))
    rcases hm with h | ⟨t, a, b, c, e⟩
    · exact h.le
    · exact hall _ ⟨t, a, b.trans hn, c, e⟩
  refine ⟨?_, hb L le_rfl⟩
  suffices ∀ n ≤ L, (coRun d logEvery zero k x s n).bestSamples m = zero from this L le_rfl
  intro n
  induction n with
  | zero => intro _; simp [coRun, pyRange_nil, coInit]
  | succ n ih =>
    intro hn
    obtain ⟨hy, hno⟩ := coRun_best_succ d logEvery zero k x s n
    by_cases hd : logEvery ∣ ((n + 1 : ℕ) : ℤ)
    · have hs := (hy hd).2.1 m
      have hbb := (hy hd).1 m
      rw [hb (n + 1) hn, hb n (by omega)] at hbb
      have hle : rowMax (d.scores (d.traj k x s (n + 1)).1 m) / d.ref m ≤ -1000000000 := by
        rw [hbb]; exact le_max_left _ _
      rw [if_neg (by rw [hb n (by omega)]; exact not_lt.2 hle)] at hs
      exact hs.trans (ih (by omega))
    · rw [(hno hd).2.1]
      exact ih (by omega)

private theorem coRun_mono [NeZero B] (d : CODriver K X S V M B) (logEvery : ℤ) (zero : V) (k : K) (x : X)
    (s : S) (m : Fin M) {n n' : ℕ} (h : n ≤ n') :
    (coRun d logEvery zero k x s n).best m ≤ (coRun d logEvery zero k x s n').best m := by
  induction n', h using Nat.le_induction with
  | base => exact le_rfl
  | succ n' _ ih =>
    obtain ⟨hy, hno⟩ := coRun_best_succ d logEvery zero k x s n'
    refine ih.trans ?_
    by_cases hd : logEvery ∣ ((n' + 1 : ℕ) : ℤ)
    · rw [(hy hd).1 m]; exact le_max_right _ _
    · rw [(hno hd).1]

/-- C48.  The best ratio never decreases with the number of steps performed (no assumption on the
reference values). -/
theorem co_best_mono [NeZero B] (d : CODriver K X S V M B) (logEvery : ℤ) {L L' : ℕ} (h : L ≤ L')
    (ratio ratio' : ℝ) (h0 : 0 ≤ ratio) (h1 : ratio ≤ 1) (h0' : 0 ≤ ratio') (h1' : ratio' ≤ 1)
    (zero : V) (k : K) (x : X) (s : S) (m : Fin M) :
    (coChain d logEvery L ratio zero k x s).best m ≤
      (coChain d logEvery L' ratio' zero k x s).best m := by
  rw [coChain_eq_coRun d logEvery L ratio h0 h1, coChain_eq_coRun d logEvery L' ratio' h0' h1']
  exact coRun_mono d logEvery zero k x s m h

/-- C48.  The saved trajectory has one entry per logged step, `⌊L / logEvery⌋` in all; entry `i` is the
masked best ratio of the run stopped after step `(i + 1)·logEvery`. -/
theorem co_trajectory [NeZero B] (d : CODriver K X S V M B) (e : ℕ) (L : ℕ) (ratio : ℝ)
    (h0 : 0 ≤ ratio) (h1 : ratio ≤ 1) (zero : V) (k : K) (x : X) (s : S) :
    (coChain d e L ratio zero k x s).chain = (List.range (L / e)).map fun i =>
      maskedBest d.sampleIdx (coChain d e ((i + 1) * e) ratio zero k x s).best := by
  rw [coChain_eq_coRun d e L ratio h0 h1]
  have hcongr : ∀ n, (coChain d e n ratio zero k x s).best = (coRun d e zero k x s n).best :=
    fun n => by rw [coChain_eq_coRun d e n ratio h0 h1]
  simp only [hcongr]
  induction L with
  | zero => simp [coRun, pyRange_nil, coInit]
  | succ n ih =>
    obtain ⟨hy, hno⟩ := coRun_best_succ d (e : ℤ) zero k x s n
    by_cases hd : e ∣ n + 1
    · have hd' : (e : ℤ) ∣ ((n + 1 : ℕ) : ℤ) := Int.natCast_dvd_natCast.2 hd
      rw [(hy hd').2.2, ih, Nat.succ_div_of_dvd hd, List.range_succ, List.map_append]
      congr 1
      have hq : (n / e + 1) * e = n + 1 := by
        rw [← Nat.succ_div_of_dvd hd, Nat.div_mul_cancel hd]
      simp only [List.map_cons, List.map_nil, hq]
    · have hd' : ¬ (e : ℤ) ∣ ((n + 1 : ℕ) : ℤ) := fun h => hd (Int.natCast_dvd_natCast.1 h)
      rw [(hno hd').2.2, ih, Nat.succ_div_of_not_dvd hd]

/-- C48.  The saved `best_ratio` is masked but the saved `best_samples` is not; because the loader puts
padding only at the end of a batch (`graph_batches`), entry `i` of both still belongs to instance `i`. -/
theorem masked_rows (idx : Fin M → ℤ) (n : ℕ) (hn : n ≤ M) (h : ∀ m, 0 ≤ idx m ↔ m.val < n)
    (best : Fin M → ℝ) : maskedBest idx best = ((List.finRange M).take n).map best := by
  unfold maskedBest
  congr 1
  have hf : ((List.finRange M).filter fun m => decide (0 ≤ idx m)) =
      (List.finRange M).filter fun m => decide (m.val < n) :=
    List.filter_congr fun m _ => by simp [h m]
  rw [hf]
  refine List.map_injective_iff.2 Fin.val_injective ?_
  have h1 : (List.filter (fun m : Fin M => decide (m.val < n)) (List.finRange M)).map Fin.val =
      ((List.finRange M).map Fin.val).filter fun i => decide (i < n) := by
    rw [List.filter_map]; rfl
  rw [h1, List.map_take, List.map_coe_finRange_eq_range]
  obtain ⟨k, rfl⟩ := Nat.exists_eq_add_of_le hn
  rw [List.range_add, List.filter_append, List.take_append_of_le_length (by simp),
    List.filter_eq_self.2 (by simp), List.filter_eq_nil_iff.2 (by simp)]
  simp

/-- C48 (why the reference must be positive): with a negative reference the reported ratio is the smallest
one, not the largest. -/
theorem co_best_negative_ref : ∃ (d : CODriver Unit Unit Unit Unit 1 2) (r : ℝ),
    r ∈ loggedRatios d 1 () () () 1 0 ∧ (coChain d 1 1 0 () () () ()).best 0 < r := by
  refine ⟨⟨fun _ _ => (), fun _ _ _ _ => ((), ()), fun _ => 1, fun _ _ c => if c = 0 then 0 else 1,
    fun _ _ _ => (), fun _ => -1, fun _ => 0⟩, 0, ⟨1, le_rfl, le_rfl, one_dvd _, 0, by simp⟩, ?_⟩
  rw [coChain_eq_coRun _ _ _ _ le_rfl zero_le_one, coRun_succ]
  simp [coRun, pyRange_nil, coInit, coBody, coLog, rowMax, List.finRange_succ]

/-- Two instances, the second one padding; two chains whose scores are the step number and its
double. -/
private def demoCO : CODriver Unit ℕ Unit ℕ 2 2 :=
  ⟨fun _ _ => (), fun _ _ x _ => (x + 1, ()), fun _ => 1, fun x _ c => x * ((c : ℕ) + 1),
    fun x _ c => 10 * x + c, fun _ => 4, fun m => if m = 0 then 5 else -1⟩

/-- The hypotheses of `co_best_exact` hold for a run of 5 steps logged every 2. -/
example : ∃ r ∈ loggedRatios demoCO 2 () 0 () 5 0, -1000000000 < r := by
  refine ⟨_, ⟨4, by norm_num, by norm_num, ⟨2, rfl⟩, 1, rfl⟩, ?_⟩
  show (-1000000000 : ℝ) < _
  have : (demoCO.traj () 0 () 4).1 = 4 := rfl
  rw [this]
  simp [demoCO]
  norm_num

/-! ### C49 -/

/-- C49.  In every layout a combinatorial run gets past, with at least one chain, the score
of the chain at `(device, model, chain)` lands after `eval_val.reshape(num_models, -1)` in the row of the
instance it was run with, and the chains fill the row without collisions. -/
theorem layout_rows (parallel : Bool) (devices M B : ℕ) (idx : List ℤ) (l : Layout)
    (hM : idx.length = M) (hB : 0 < B)
    (h : coLayout parallel devices M B idx = some l) :
    l.dev * l.mods * l.chains = M * B ∧
    (∀ d < l.dev, ∀ j < l.mods, ∀ c < l.chains,
      l.flat d j c < M * B ∧ l.flat d j c / B = l.inst d j) ∧
    (∀ d < l.dev, ∀ j < l.mods, ∀ c < l.chains, ∀ d' < l.dev, ∀ j' < l.mods, ∀ c' < l.chains,
      l.flat d j c = l.flat d' j' c' → d = d' ∧ j = j' ∧ c = c') := by
  have inj : ∀ l : Layout, ∀ d < l.dev, ∀ j < l.mods, ∀ c < l.chains, ∀ d' < l.dev, ∀ j' < l.mods,
      ∀ c' < l.chains, l.flat d j c = l.flat d' j' c' → d = d' ∧ j = j' ∧ c = c' := by
    intro l d _ j hj c hc d' _ j' hj' c' hc' he
    have hq : (l.flat d j c) / l.chains = d * l.mods + j := by
      rw [Layout.flat, Nat.mul_comm, Nat.mul_add_div (by omega), Nat.div_eq_of_lt hc, Nat.add_zero]
    have hq' : (l.flat d' j' c') / l.chains = d' * l.mods + j' := by
      rw [Layout.flat, Nat.mul_comm, Nat.mul_add_div (by omega), Nat.div_eq_of_lt hc', Nat.add_zero]
    rw [he, hq'] at hq
    have h1 : (d * l.mods + j) / l.mods = d := by
      rw [Nat.mul_comm, Nat.mul_add_div (by omega), Nat.div_eq_of_lt hj, Nat.add_zero]
    have h2 : (d' * l.mods + j') / l.mods = d' := by
      rw [Nat.mul_comm, Nat.mul_add_div (by omega), Nat.div_eq_of_lt hj', Nat.add_zero]
    rw [hq, h1] at h2
    subst h2
    have hjj : j = j' := by omega
    subst hjj
    exact ⟨rfl, rfl, by simpa [Layout.flat] using he⟩
  -- layouts in which parameters are reshaped together with the samples
  have reshaped : ∀ (D J : ℕ), D * J = M →
      (D * J * B = M * B ∧ ∀ d < D, ∀ j < J, ∀ c < B,
        (⟨D, J, B, false⟩ : Layout).flat d j c < M * B ∧
          (⟨D, J, B, false⟩ : Layout).flat d j c / B = (⟨D, J, B, false⟩ : Layout).inst d j) := by
    intro D J hDJ
    refine ⟨by rw [hDJ], fun d hd j hj c hc => ⟨?_, ?_⟩⟩
    · have h1 : d * J + j + 1 ≤ M := by
        calc d * J + j + 1 ≤ d * J + J := by omega
          _ = (d + 1) * J := by ring
          _ ≤ D * J := Nat.mul_le_mul_right _ hd
          _ = M := hDJ
      calc (d * J + j) * B + c < (d * J + j) * B + B := by omega
        _ = (d * J + j + 1) * B := by ring
        _ ≤ M * B := Nat.mul_le_mul_right _ h1
    · simp only [Layout.flat, Layout.inst, Bool.false_eq_true, if_false]
      rw [Nat.mul_comm, Nat.mul_add_div hB, Nat.div_eq_of_lt hc, Nat.add_zero]
  refine ⟨?_, ?_, inj l⟩ <;>
  · unfold coLayout at h
    split_ifs at h with hp hle hmod hBm hidx
    · obtain rfl := (Option.some.injEq _ _).mp h.symm
      have := reshaped devices (M / devices) (Nat.mul_div_cancel' (Nat.dvd_of_mod_eq_zero hmod))
      first | exact this.1 | exact this.2
    · obtain rfl := (Option.some.injEq _ _).mp h.symm
      have hM1 : M = 1 := by rw [← hM, hidx]; rfl
      have hBd : devices * (B / devices) = B := Nat.mul_div_cancel' (Nat.dvd_of_mod_eq_zero hBm)
      subst hM1
      first
      | (show devices * 1 * (B / devices) = 1 * B
         rw [Nat.mul_one, hBd, Nat.one_mul])
      | (intro d hd j hj c hc
         obtain rfl : j = 0 := by
           have : j < 1 := hj
           omega
         have hlt : (⟨devices, 1, B / devices, true⟩ : Layout).flat d 0 c < B := by
           show (d * 1 + 0) * (B / devices) + c < B
           have hd' : d + 1 ≤ devices := hd
           have hc' : c < B / devices := hc
           calc (d * 1 + 0) * (B / devices) + c < d * (B / devices) + B / devices := by
                 rw [Nat.mul_one, Nat.add_zero]; omega
             _ = (d + 1) * (B / devices) := by ring
             _ ≤ devices * (B / devices) := Nat.mul_le_mul_right _ hd'
             _ = B := hBd
         refine ⟨by rw [Nat.one_mul]; exact hlt, ?_⟩
         rw [Nat.div_eq_of_lt hlt]
         rfl)
    · obtain rfl := (Option.some.injEq _ _).mp h.symm
      have := reshaped 1 M (Nat.one_mul M)
      first | exact this.1 | exact this.2

/-- C49 (finding): with several devices and between two and `devices - 1` instances the run raises. -/
theorem layout_few_models (devices M B : ℕ) (idx : List ℤ) (hM : idx.length = M) (h2 : 2 ≤ M)
    (hlt : M < devices) : coLayout true devices M B idx = none := by
  unfold coLayout
  rw [if_pos rfl, if_neg (by omega)]
  split_ifs with _ hidx
  · rw [hidx] at hM
    simp at hM
    omega
  · rfl
  · rfl

/-- C49 (finding): and with a single instance it raises unless that instance is number `0` of the
dataset. -/
theorem layout_single (devices B : ℕ) (i : ℤ) (hi : i ≠ 0) (hlt : 1 < devices) :
    coLayout true devices 1 B [i] = none := by
  unfold coLayout
  rw [if_pos rfl, if_neg (by omega)]
  split_ifs with _ hidx
  · exact absurd (by simpa using hidx) hi
  · rfl
  · rfl

/-- C49 (what the exception hides): replicated parameters with two or more instances would have put
scores of one instance in the row of another. -/
theorem layout_replicated_mixes (devices M b : ℕ) (hM : 2 ≤ M) (hlt : M < devices) (hb : 0 < b) :
    let l : Layout := ⟨devices, M, b, true⟩
    ∃ d < l.dev, ∃ j < l.mods, ∃ c < l.chains, l.flat d j c / (devices * b) ≠ l.inst d j := by
  refine ⟨0, by show 0 < devices; omega, 1, by show 1 < M; omega, 0, hb, ?_⟩
  show ((0 * M + 1) * b + 0) / (devices * b) ≠ 1
  have : (0 * M + 1) * b + 0 = b := by ring
  rw [this, Nat.div_eq_of_lt]
  · omega
  · nlinarith

/-- Non-trivial layouts: six instances on three devices; one instance on four devices. -/
example : coLayout true 3 6 16 [0, 1, 2, 3, 4, 5] = some ⟨3, 2, 16, false⟩ ∧
    coLayout true 4 1 8 [0] = some ⟨4, 1, 2, true⟩ := ⟨rfl, rfl⟩

/-! ### C50 -/

variable {β : Type*}

/-- C50 (partial).  After a run over a single batch of instances the results file holds the results of
that batch.  Missing: runs over several batches, see `results_last`. -/
theorem results_single_partial (run : β → COResults V) (fs : String → Option (COResults V)) (b : β) :
    coGetResults run fs [b] "results.pkl" = some (run b) := by
  simp [coGetResults, dumpDict]

/-- C50 is false: whatever the earlier batches, the results file only holds the last one. -/
theorem results_last (run : β → COResults V) (fs : String → Option (COResults V)) (bs : List β) (b : β) :
    coGetResults run fs (bs ++ [b]) "results.pkl" = some (run b) := by
  rw [coGetResults, List.foldl_append]
  simp [dumpDict]

/-- C50 (other files).  A run over any batches leaves every other file as it was, and a run over no batch writes
nothing. -/
theorem results_others (run : β → COResults V) (fs : String → Option (COResults V)) (bs : List β) {file : String}
    (h : file ≠ "results.pkl" ∨ bs = []) : coGetResults run fs bs file = fs file := by
  rcases h with h | rfl
  · unfold coGetResults
    induction bs generalizing fs with
    | nil => rfl
    | cons b bs ih =>
      rw [List.foldl_cons, ih]
      simp [dumpDict, h]
  · rfl

/-- C50 is false, with the loader: three instances in batches of two.  The file ends up with one best
ratio, that of the third instance. -/
theorem results_lost : ∃ batches, getIterator 1 0 2 3 (0 : ℕ) [10, 20, 30] = some batches ∧
    ∀ (score : ℕ → ℝ) (fs : String → Option (COResults ℕ)),
      (coGetResults (fun b : List (ℤ × ℕ) => (⟨[], (b.filter fun p => 0 ≤ p.1).map fun p => score p.2, []⟩ :
        COResults ℕ)) fs batches "results.pkl").map (·.bestRatio) = some [score 30] := by
  refine ⟨[[(0, 10), (1, 20)], [(2, 30), (-1, 0)]], by decide, fun score fs => ?_⟩
  simp [coGetResults, dumpDict]

/-- C50 (partial), with the loader: if all instances fit in one batch, the file holds the results of
exactly that batch, which contains every instance. -/
theorem results_one_batch_partial {α : Type*} (batchSize : ℕ) (dummy : α) (items : List α)
    (hne : items ≠ []) (hfit : items.length ≤ batchSize) (run : List (ℤ × α) → COResults V)
    (fs : String → Option (COResults V)) :
    ∃ b, getIterator 1 0 batchSize items.length dummy items = some [b] ∧
      coGetResults run fs [b] "results.pkl" = some (run b) ∧
      ∀ i (h : i < items.length), ((i : ℤ), items[i]) ∈ b := by
  have hlen0 : 0 < items.length := List.length_pos_iff.2 hne
  obtain ⟨bs, hb, hlen, -, k, hflat⟩ := graph_batches (P := 1) (p := 0) (B := batchSize) one_pos
    (hlen0.trans_le hfit) dummy items le_rfl
  rw [Nat.one_mul] at hb hlen
  have h1 : (items.length + batchSize - 1) / batchSize = 1 := by
    rw [Nat.div_eq_iff (hlen0.trans_le hfit)]; omega
  rw [h1] at hlen
  obtain ⟨b, rfl⟩ := List.length_eq_one_iff.1 hlen
  refine ⟨b, hb, results_single_partial run fs b, fun i h => ?_⟩
  have hmem := ((share_partition 1 items).1 i h 0).2 (Nat.mod_one i).symm
  have : b = share 1 0 items ++ List.replicate k (-1, dummy) := by simpa using hflat
  rw [this]
  exact List.mem_append_left _ hmem

/-! ### C51 -/

/-- C51 (constant schedule). -/
theorem const_schedule (init fin : ℝ) (h : fin ≤ init) (hf : 0 < fin) (t t' : ℕ) :
    0 < constSchedule init t ∧ constSchedule init t' ≤ constSchedule init t ∧
      fin ≤ constSchedule init t ∧ constSchedule init t = init := by
  simp only [constSchedule, mul_zero, zero_add]
  exact ⟨hf.trans_le h, le_rfl, h, trivial⟩

/-- C51 (linear schedule): positive, non-increasing, between the two temperatures, and it ends at the
final one. -/
theorem linear_schedule (init fin : ℝ) (h : fin ≤ init) (hf : 0 < fin) (L t t' : ℕ) (htt : t ≤ t') :
    0 < linearSchedule init fin L t ∧ linearSchedule init fin L t' ≤ linearSchedule init fin L t ∧
      fin ≤ linearSchedule init fin L t ∧ linearSchedule init fin L t ≤ init ∧
      (0 < L → linearSchedule init fin L L = fin) := by
  unfold linearSchedule
  by_cases hL : L = 0
  · simp only [hL, if_true]
    exact ⟨hf.trans_le h, le_rfl, h, le_rfl, fun h => absurd h (lt_irrefl _)⟩
  simp only [hL, if_false]
  have hL' : (0 : ℝ) < L := by positivity
  have hfrac : ∀ t : ℕ, 0 ≤ ((min t L : ℕ) : ℝ) / L ∧ ((min t L : ℕ) : ℝ) / L ≤ 1 := by
    refine fun t => ⟨by positivity, ?_⟩
    rw [div_le_one hL']
    exact_mod_cast min_le_right t L
  have hmono : ((min t L : ℕ) : ℝ) / L ≤ ((min t' L : ℕ) : ℝ) / L := by
    refine div_le_div_of_nonneg_right ?_ hL'.le
    exact_mod_cast min_le_min_right L htt
  obtain ⟨h1, h2⟩ := hfrac t
  refine ⟨?_, ?_, ?_, ?_, fun _ => ?_⟩
  · nlinarith [mul_nonneg (sub_nonneg.2 h) (sub_nonneg.2 h2)]
  · nlinarith [mul_le_mul_of_nonneg_left hmono (sub_nonneg.2 h)]
  · nlinarith [mul_nonneg (sub_nonneg.2 h) (sub_nonneg.2 h2)]
  · nlinarith [mul_nonneg (sub_nonneg.2 h) h1]
  · rw [min_self, div_self hL'.ne']; ring

/-- C51 (exponential schedule): positive, non-increasing, between the two temperatures; after
`chain_length` steps it is `max(init·rate, final)`. -/
theorem exp_schedule (init fin rate : ℝ) (h : fin ≤ init) (hf : 0 < fin) (hr0 : 0 < rate) (hr1 : rate < 1)
    (L t t' : ℕ) (htt : t ≤ t') :
    0 < expSchedule init fin rate L t ∧ expSchedule init fin rate L t' ≤ expSchedule init fin rate L t ∧
      fin ≤ expSchedule init fin rate L t ∧ expSchedule init fin rate L t ≤ init ∧
      (0 < L → expSchedule init fin rate L L = max (init * rate) fin) := by
  have hi : 0 < init := hf.trans_le h
  unfold expSchedule
  by_cases hL : L = 0
  · simp only [hL, true_or, if_true]
    exact ⟨hi, le_rfl, h, le_rfl, fun h => absurd h (lt_irrefl _)⟩
  have hL' : (0 : ℝ) < L := by positivity
  simp only [hL, hr0.ne', or_self, if_false, hr1, if_true]
  have hdec : ∀ t : ℕ, (if t = 0 then init else init * rate ^ ((t : ℝ) / L)) =
      init * rate ^ ((t : ℝ) / L) := by
    intro t
    split_ifs with ht
    · simp [ht]
    · rfl
  simp only [hdec]
  have hle1 : ∀ t : ℕ, rate ^ ((t : ℝ) / L) ≤ 1 := fun t =>
    Real.rpow_le_one hr0.le hr1.le (by positivity)
  have hmono : rate ^ ((t' : ℝ) / L) ≤ rate ^ ((t : ℝ) / L) := by
    refine Real.rpow_le_rpow_of_exponent_ge hr0 hr1.le ?_
    exact div_le_div_of_nonneg_right (by exact_mod_cast htt) hL'.le
  refine ⟨lt_max_of_lt_right hf, max_le_max (mul_le_mul_of_nonneg_left hmono hi.le) le_rfl,
    le_max_right _ _, max_le ?_ h, fun _ => ?_⟩
  · calc init * rate ^ ((t : ℝ) / L) ≤ init * 1 := mul_le_mul_of_nonneg_left (hle1 t) hi.le
      _ = init := mul_one _
  · rw [div_self hL'.ne', Real.rpow_one]

/-- C51 (finding): the exponential schedule reaches the final temperature at the end of the run only if
`init·rate ≤ final`; otherwise the run ends hotter. -/
theorem exp_schedule_end_iff (init fin rate : ℝ) (hr0 : 0 < rate) (hr1 : rate < 1) (L : ℕ) (hL : 0 < L) :
    expSchedule init fin rate L L = fin ↔ init * rate ≤ fin := by
  have hL' : (0 : ℝ) < L := by positivity
  simp only [expSchedule, hL.ne', hr0.ne', or_self, if_false, hr1, if_true, div_self hL'.ne',
    Real.rpow_one]
  exact max_eq_right_iff

/-- A non-trivial instance of the hypotheses: from 1 to 0.1 with rate 0.05 over 100 steps. -/
example : expSchedule 1 (1 / 10) (1 / 20) 100 100 = 1 / 10 :=
  (exp_schedule_end_iff 1 (1 / 10) (1 / 20) (by norm_num) (by norm_num) 100 (by norm_num)).2 (by norm_num)

end Discs
