import Verif.Model.Bleu
import Verif.Props.LMEval
import Verif.Spec.Bleu

/-!
# Phrase counts and totals of BLEU
-/

namespace Discs

open Spec Finset

variable {W : Type*} [DecidableEq W]

-- phrases are compared with the equality test derived from decidable equality
attribute [-instance] List.instBEq

theorem counterGet_of_mem {K : Type*} [DecidableEq K] {c : List (K × ℕ)} (hn : (c.map Prod.fst).Nodup) {k : K} {v : ℕ}
    (h : (k, v) ∈ c) : counterGet c k = v := by
  induction c with
  | nil => simp at h
  | cons kv c ih =>
    obtain ⟨k', v'⟩ := kv
    simp only [List.map_cons, List.nodup_cons, List.mem_map] at hn
    rw [counterGet]
    rcases List.mem_cons.1 h with e | e
    · obtain ⟨rfl, rfl⟩ := Prod.mk.inj e
      simp
    · rw [if_neg, ih hn.2 e]
      rintro rfl
      exact hn.1 ⟨_, e, rfl⟩

theorem counterGet_of_notMem {K : Type*} [DecidableEq K] {c : List (K × ℕ)} {k : K}
    (h : k ∉ c.map Prod.fst) : counterGet c k = 0 := by
  induction c with
  | nil => rfl
  | cons kv c ih =>
    obtain ⟨k', v'⟩ := kv
    simp only [List.map_cons, List.mem_cons, not_or] at h
    rw [counterGet, if_neg (fun e => h.1 e.symm), ih h.2]

theorem counterGet_counter {K : Type*} [DecidableEq K] (l : List K) (k : K) : counterGet (counter l) k = l.count k := by
  obtain ⟨h1, h2, h3, -⟩ := counter_spec l
  by_cases hk : k ∈ (counter l).map Prod.fst
  · obtain ⟨⟨k', v⟩, hm, rfl⟩ := List.mem_map.1 hk
    rw [counterGet_of_mem h1 hm, h3 _ _ hm]
  · rw [counterGet_of_notMem hk, List.count_eq_zero_of_not_mem fun h => hk ((h2 k).2 h)]

theorem count_ngrams {n : ℕ} {g : List W} (hg : g.length = n) (s : List W) : (ngrams n s).count g = occIn g s := by
  have := count_flat hg [s]
  simpa [occurrences, occIn] using this

theorem maxCounts_inner (counts : List (List W × ℕ)) (hn : (counts.map Prod.fst).Nodup) (c : List W → ℕ)
    (mc : List W → Option ℕ) (g : List W) :
    counts.foldl (fun (mc : List W → Option ℕ) kv =>
      Function.update mc kv.1 (some (max ((mc kv.1).getD 0) (c kv.1)))) mc g =
      if g ∈ counts.map Prod.fst then some (max ((mc g).getD 0) (c g)) else mc g := by
  induction counts generalizing mc with
  | nil => simp
  | cons kv counts ih =>
    simp only [List.map_cons, List.nodup_cons] at hn
    rw [List.foldl_cons, ih hn.2]
    by_cases hg : g = kv.1
    · subst hg
      simp [hn.1]
    · have hm : g ∈ (kv :: counts).map Prod.fst ↔ g ∈ counts.map Prod.fst := by
        rw [List.map_cons, List.mem_cons]
        exact or_iff_right hg
      rw [Function.update_of_ne hg]
      by_cases h : g ∈ counts.map Prod.fst
      · rw [if_pos h, if_pos (hm.2 h)]
      · rw [if_neg h, if_neg fun h' => h (hm.1 h')]

theorem bleuMaxCounts_eq (counts : List (List W × ℕ)) (hn : (counts.map Prod.fst).Nodup) {refs : List (List W)}
    (hr : refs ≠ []) (n : ℕ) {g : List W} (hg : g ∈ counts.map Prod.fst) :
    bleuMaxCounts counts refs n g = some ((refs.map fun r => (ngrams n r).count g).foldr max 0) := by
  have key : ∀ (refs : List (List W)) (mc : List W → Option ℕ),
      refs.foldl (fun (mc : List W → Option ℕ) ref => counts.foldl (fun mc kv => Function.update mc kv.1
        (some (max ((mc kv.1).getD 0) (counterGet (counter (ngrams n ref)) kv.1)))) mc) mc g =
      if refs = [] then mc g else some (max ((mc g).getD 0) ((refs.map fun r => (ngrams n r).count g).foldr max 0)) := by
    intro refs
    induction refs with
    | nil => simp
    | cons r refs ih =>
      intro mc
      rw [List.foldl_cons, ih, maxCounts_inner _ hn (fun k => counterGet (counter (ngrams n r)) k), if_pos hg,
        counterGet_counter]
      by_cases e : refs = []
      · simp [e]
      · simp [e, max_assoc]
  rw [bleuMaxCounts, key, if_neg hr]
  simp

theorem mem_phrases {n : ℕ} {s g : List W} : g ∈ phrases n s ↔ g ∈ ngrams n s := by
  simp [phrases, ngrams]

theorem phrases_toFinset (n : ℕ) (s : List W) : phrases n s = (ngrams n s).toFinset := by
  ext g; rw [mem_phrases, List.mem_toFinset]

theorem phrases_length {n : ℕ} {s g : List W} (h : g ∈ phrases n s) : g.length = n :=
  (mem_ngrams.1 (mem_phrases.1 h)).1

theorem sum_counter {K : Type*} [DecidableEq K] (l : List K) (f : K → ℕ → ℕ) :
    ((counter l).map fun kv => f kv.1 kv.2).sum = ∑ k ∈ l.toFinset, f k (l.count k) := by
  obtain ⟨h1, h2, h3, -⟩ := counter_spec l
  have e : ((counter l).map fun kv => f kv.1 kv.2) = ((counter l).map Prod.fst).map fun k => f k (l.count k) := by
    rw [List.map_map]
    refine List.map_congr_left fun kv hkv => ?_
    simp only [Function.comp]
    rw [h3 kv.1 kv.2 hkv]
  rw [e, ← List.sum_toFinset _ h1]
  refine Finset.sum_congr ?_ fun _ _ => rfl
  ext k
  rw [List.mem_toFinset, List.mem_toFinset, h2]

theorem sum_occIn (n : ℕ) (s : List W) : ∑ g ∈ phrases n s, occIn g s = s.length + 1 - n := by
  rw [← ngrams_length n s, ← (counter_spec (ngrams n s)).2.2.2, sum_counter (ngrams n s) fun _ v => v, phrases_toFinset]
  refine Finset.sum_congr rfl fun g hg => ?_
  rw [count_ngrams (mem_ngrams.1 (List.mem_toFinset.1 hg)).1]

/-- Numerator and denominator of the modified precision. -/
theorem modifiedPrecision_eq {refs : List (List W)} (hr : refs ≠ []) (s : List W) (n : ℕ) :
    modifiedPrecision refs s n = some (matched n refs s, max 1 (s.length + 1 - n)) := by
  obtain ⟨h1, h2, h3, h4⟩ := counter_spec (ngrams n s)
  have hm : (counter (ngrams n s)).mapM (fun kv => (bleuMaxCounts (counter (ngrams n s)) refs n kv.1).map fun m =>
      min kv.2 m) = some ((counter (ngrams n s)).map fun kv =>
        min kv.2 ((refs.map fun r => (ngrams n r).count kv.1).foldr max 0)) := by
    have : ∀ l : List (List W × ℕ), (∀ kv ∈ l, kv ∈ counter (ngrams n s)) →
        l.mapM (fun kv => (bleuMaxCounts (counter (ngrams n s)) refs n kv.1).map fun m => min kv.2 m) =
        some (l.map fun kv => min kv.2 ((refs.map fun r => (ngrams n r).count kv.1).foldr max 0)) := by
      intro l hl
      induction l with
      | nil => rfl
      | cons kv l ih =>
        rw [List.mapM_cons, ih fun k hk => hl k (List.mem_cons_of_mem _ hk),
          bleuMaxCounts_eq _ h1 hr n (List.mem_map_of_mem (hl kv List.mem_cons_self))]
        rfl
    exact this _ fun _ h => h
  simp only [modifiedPrecision, hm, Option.bind_eq_bind, Option.bind_some, Option.pure_def, h4, ngrams_length]
  congr 2
  rw [sum_counter (ngrams n s) fun k v => min v ((refs.map fun r => (ngrams n r).count k).foldr max 0), matched,
    phrases_toFinset]
  refine Finset.sum_congr rfl fun g hg => ?_
  have hl := (mem_ngrams.1 (List.mem_toFinset.1 hg)).1
  rw [count_ngrams hl, bestOcc]
  congr 2
  exact List.map_congr_left fun r _ => count_ngrams hl r

theorem closestRefLength_spec (m : ℕ) {L : List ℕ} (hL : L ≠ []) :
    ∃ r, closestRefLength m L = some r ∧ IsClosest m L r := by
  obtain ⟨l, ls, rfl⟩ := List.exists_cons_of_ne_nil hL
  refine ⟨_, rfl, ?_⟩
  suffices h : ∀ (ls : List ℕ) (seen : List ℕ) (b : ℕ), IsClosest m seen b →
      IsClosest m (seen ++ ls) (ls.foldl (fun best l =>
        let d := fun l : ℕ => ((l : ℤ) - m).natAbs
        if d l < d best ∨ (d l = d best ∧ l < best) then l else best) b) by
    exact h ls [l] l ⟨by simp, by simp⟩
  intro ls
  induction ls with
  | nil => intro seen b hb; simpa using hb
  | cons a ls ih =>
    intro seen b hb
    rw [List.foldl_cons, List.append_cons]
    apply ih
    obtain ⟨h1, h2⟩ := hb
    dsimp only
    simp only [Int.abs_eq_natAbs] at h2
    split_ifs with hc
    · refine ⟨by simp, fun l hl => ?_⟩
      simp only [Int.abs_eq_natAbs]
      rcases List.mem_append.1 hl with hl | hl
      · have := h2 l hl; omega
      · obtain rfl := List.mem_singleton.1 hl; omega
    · refine ⟨by simp [h1], fun l hl => ?_⟩
      simp only [Int.abs_eq_natAbs]
      rcases List.mem_append.1 hl with hl | hl
      · exact h2 l hl
      · obtain rfl := List.mem_singleton.1 hl; omega

theorem isClosest_unique {m : ℕ} {L : List ℕ} {r r' : ℕ} (h : IsClosest m L r) (h' : IsClosest m L r') : r = r' := by
  have h1 := h.2 r' h'.1
  have h2 := h'.2 r h.1
  omega

theorem closestRefLength_iff {m : ℕ} {L : List ℕ} {r : ℕ} : closestRefLength m L = some r ↔ IsClosest m L r := by
  constructor
  · intro h
    cases L with
    | nil => simp [closestRefLength] at h
    | cons l L =>
      obtain ⟨r', h1, h2⟩ := closestRefLength_spec m (L := l :: L) (by simp)
      rw [h] at h1
      exact Option.some.inj h1 ▸ h2
  · intro h
    obtain ⟨r', h1, h2⟩ := closestRefLength_spec m (L := L) (by rintro rfl; simp [IsClosest] at h)
    rw [h1, isClosest_unique h2 h]

theorem closest_spec (m : ℕ) {L : List ℕ} (hL : L ≠ []) : IsClosest m L (closest m L) := by
  obtain ⟨r, -, h⟩ := closestRefLength_spec m hL
  exact Nat.sInf_mem (s := {r | IsClosest m L r}) ⟨r, h⟩

theorem closestRefLength_eq (m : ℕ) {L : List ℕ} (hL : L ≠ []) : closestRefLength m L = some (closest m L) :=
  closestRefLength_iff.2 (closest_spec m hL)

/-- The totals over a corpus whose sentences all have references. -/
theorem bleuTotals_eq (sizes : ℕ) (c : List (List (List W) × List W)) (hc : ∀ p ∈ c, p.1 ≠ []) :
    ∃ q, bleuTotals sizes (c.map Prod.fst) (c.map Prod.snd) = some (q, tokens c, refTokens c) ∧
      ∀ i < sizes, q i = (corpusMatched (i + 1) c, corpusPlaces (i + 1) c) := by
  induction c with
  | nil => exact ⟨_, rfl, fun i _ => rfl⟩
  | cons p c ih =>
    obtain ⟨refs, h⟩ := p
    obtain ⟨q, h1, h2⟩ := ih fun p hp => hc p (List.mem_cons_of_mem _ hp)
    have hr : refs ≠ [] := hc _ List.mem_cons_self
    have hr1 := closestRefLength_eq h.length (L := refs.map List.length) (by simpa using hr)
    have hm : (List.range sizes).mapM (fun i => modifiedPrecision refs h (i + 1)) =
        some ((List.range sizes).map fun i => (matched (i + 1) refs h, max 1 (h.length + 1 - (i + 1)))) := by
      have : ∀ l : List ℕ, l.mapM (fun i => modifiedPrecision refs h (i + 1)) =
          some (l.map fun i => (matched (i + 1) refs h, max 1 (h.length + 1 - (i + 1)))) := by
        intro l
        induction l with
        | nil => rfl
        | cons i l ih => rw [List.mapM_cons, ih, modifiedPrecision_eq hr]; rfl
      exact this _
    refine ⟨fun i => ((((List.range sizes).map fun i => (matched (i + 1) refs h, max 1 (h.length + 1 - (i + 1)))).getD i
      (0, 0)).1 + (q i).1, (((List.range sizes).map fun i => (matched (i + 1) refs h,
      max 1 (h.length + 1 - (i + 1)))).getD i (0, 0)).2 + (q i).2), ?_, ?_⟩
    · simp only [List.map_cons, bleuTotals, hm, hr1, h1, Option.bind_eq_bind, Option.bind_some, Option.pure_def]
      rfl
    · intro i hi
      simp [h2 i hi, List.getD, hi, corpusMatched, corpusPlaces]

omit [DecidableEq W] in
theorem corpusPlaces_pos {c : List (List (List W) × List W)} (hc : c ≠ []) (n : ℕ) : 0 < corpusPlaces n c := by
  obtain ⟨p, c, rfl⟩ := List.exists_cons_of_ne_nil hc
  simp [corpusPlaces]

theorem matched_le (n : ℕ) (refs : List (List W)) (s : List W) : matched n refs s ≤ s.length + 1 - n := by
  rw [← sum_occIn n s]
  exact Finset.sum_le_sum fun g _ => min_le_left _ _

theorem corpusMatched_le (n : ℕ) (c : List (List (List W) × List W)) : corpusMatched n c ≤ corpusPlaces n c := by
  refine List.sum_le_sum fun p _ => (matched_le n p.1 p.2).trans (le_max_right _ _)

theorem smallest_pos : (0 : ℝ) < (2 : ℝ) ^ (-1022 : ℤ) := by positivity

theorem smallest_lt : (2 : ℝ) ^ (-1022 : ℤ) < 1 := zpow_lt_one_of_neg₀ (by norm_num) (by norm_num)

theorem precision_pos {c : List (List (List W) × List W)} (hc : c ≠ []) (n : ℕ) : 0 < precision n c := by
  unfold precision
  split_ifs with h
  · exact smallest_pos
  · have := corpusPlaces_pos hc n
    have : 0 < corpusMatched n c := Nat.pos_of_ne_zero h
    positivity

theorem precision_le {c : List (List (List W) × List W)} (hc : c ≠ []) (n : ℕ) : precision n c ≤ 1 := by
  unfold precision
  split_ifs with h
  · exact smallest_lt.le
  · have := corpusPlaces_pos hc n
    rw [div_le_one (by exact_mod_cast this)]
    exact_mod_cast corpusMatched_le n c

theorem precision_eq_one {c : List (List (List W) × List W)} (hc : c ≠ []) (n : ℕ) :
    precision n c = 1 ↔ corpusMatched n c = corpusPlaces n c := by
  have hp := corpusPlaces_pos hc n
  unfold precision
  split_ifs with h
  · rw [h]
    exact ⟨fun e => absurd e smallest_lt.ne, fun e => absurd e hp.ne⟩
  · rw [div_eq_one_iff_eq (by exact_mod_cast hp.ne')]
    exact_mod_cast Iff.rfl

theorem brevity_pos (r h : ℕ) : 0 < brevity r h := by
  unfold brevity
  split_ifs
  · norm_num
  · exact Real.exp_pos _

theorem brevity_le (r : ℕ) {h : ℕ} (hh : 0 < h) : brevity r h ≤ 1 := by
  unfold brevity
  split_ifs with e
  · exact le_rfl
  · have hh' : (0 : ℝ) < h := by exact_mod_cast hh
    rw [Real.exp_le_one_iff, sub_nonpos, one_le_div hh']
    exact_mod_cast (not_le.1 e).le

theorem brevity_eq_one (r : ℕ) {h : ℕ} (hh : 0 < h) : brevity r h = 1 ↔ r ≤ h := by
  unfold brevity
  split_ifs with e
  · simp [e]
  · have hh' : (0 : ℝ) < h := by exact_mod_cast hh
    simp only [e, iff_false]
    rw [Real.exp_eq_one_iff, sub_eq_zero, eq_comm, div_eq_one_iff_eq hh'.ne']
    intro e'
    exact e (by exact_mod_cast e'.le)

theorem brevity_anti {r r' h : ℕ} (hh : 0 < h) (hr : r ≤ r') : brevity r' h ≤ brevity r h := by
  by_cases e : r ≤ h
  · rw [(brevity_eq_one r hh).2 e]; exact brevity_le _ hh
  · rw [brevity, brevity, if_neg e, if_neg (fun h' => e (hr.trans h')), Real.exp_le_exp]
    have : (r : ℝ) / h ≤ r' / h := by gcongr
    linarith

theorem brevityPenalty_eq (r : ℕ) {h : ℕ} (hh : 0 < h) : brevityPenalty r h = brevity r h := by
  unfold brevityPenalty brevity
  rcases lt_trichotomy r h with e | rfl | e
  · rw [if_pos e, if_pos e.le]
  · rw [if_neg (lt_irrefl _), if_neg hh.ne', if_pos le_rfl, div_self (by exact_mod_cast hh.ne'), sub_self, Real.exp_zero]
  · rw [if_neg (by omega), if_neg hh.ne', if_neg (by omega)]

theorem tokens_pos {c : List (List (List W) × List W)} (h : corpusMatched 1 c ≠ 0) : 0 < tokens c := by
  rcases Nat.eq_zero_or_pos (tokens c) with e | e
  · refine absurd ?_ h
    rw [corpusMatched, List.sum_eq_zero_iff]
    rintro x hx
    obtain ⟨p, hp, rfl⟩ := List.mem_map.1 hx
    have : p.2.length = 0 := by
      rw [tokens, List.sum_eq_zero_iff] at e
      exact e _ (List.mem_map_of_mem hp)
    have := matched_le 1 p.1 p.2
    omega
  · exact e

/-- The score for a weight tuple of at most `sizes` entries. -/
theorem corpusBleu_eq {c : List (List (List W) × List W)} (h0 : c ≠ []) (hc : ∀ p ∈ c, p.1 ≠ []) {weights : List (List ℝ)}
    (hw : ∃ w ∈ weights, w ≠ []) :
    corpusBleu (c.map Prod.fst) (c.map Prod.snd) weights = some (weights.map fun w =>
      if corpusMatched 1 c = 0 then 0 else brevity (refTokens c) (tokens c) *
        Real.exp ((w.zipIdx.map fun wi => wi.1 * Real.log (precision (wi.2 + 1) c)).sum)) := by
  obtain ⟨q, h1, h2⟩ := bleuTotals_eq ((weights.map List.length).foldr max 0) c hc
  have hsz : ∀ w ∈ weights, w.length ≤ (weights.map List.length).foldr max 0 := by
    intro w hw'
    clear h1 h2 hw
    induction weights with
    | nil => simp at hw'
    | cons a l ih =>
      rcases List.mem_cons.1 hw' with rfl | hw'
      · simp
      · have := ih hw'
        simp only [List.map_cons, List.foldr_cons]
        omega
  have hpos : 0 < (weights.map List.length).foldr max 0 := by
    obtain ⟨w, hw, hw'⟩ := hw
    exact (List.length_pos_of_ne_nil hw').trans_le (hsz w hw)
  have hden : ¬ ∃ i < (weights.map List.length).foldr max 0, (q i).2 = 0 := by
    rintro ⟨i, hi, h⟩
    rw [h2 i hi] at h
    exact (corpusPlaces_pos h0 (i + 1)).ne' h
  have h10 : (q 0).1 = corpusMatched 1 c := by rw [h2 0 hpos]
  simp only [corpusBleu, List.length_map, ne_eq, not_true_eq_false, if_false, h1, Option.bind_eq_bind, Option.bind_some,
    Option.pure_def, hden, h10]
  by_cases hm : corpusMatched 1 c = 0
  · simp [hm]
  · simp only [hm, if_false]
    refine congrArg some (List.map_congr_left fun w hw' => ?_)
    rw [brevityPenalty_eq _ (tokens_pos hm)]
    congr 3
    refine List.map_congr_left fun wi hwi => ?_
    have hi := (List.mem_zipIdx' (x := wi.1) (i := wi.2) hwi).1
    rw [h2 _ (lt_of_lt_of_le hi (hsz w hw'))]
    simp only [bleuSmooth, precision, ite_not]

end Discs
