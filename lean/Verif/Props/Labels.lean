import Verif.Model.Labels
import Verif.Props.Loader

/-!
# C96: which settings of a sampler the labels of plots and tables tell apart
-/

namespace Discs

namespace Spec

/-- Samplers with a configuration in `discs/samplers/configs`. -/
def samplerNames : List (List Char) :=
  ["blockgibbs", "dlmc", "dmala", "gibbs", "gwg", "hammingball", "locallybalanced", "path_auxiliary",
    "randomwalk"].map String.toList

/-- The four balancing functions. -/
def balancingNames : List (List Char) := ["SQRT", "RATIO", "MIN", "MAX"].map String.toList

/-- Characters of a plain decimal number. -/
def numChar (c : Char) : Bool := c.isDigit || c == '.'

/-- The values that sweeps use: a known sampler, numbers in decimal notation, a known balancing function. -/
def Recognised (d : ExpDict) : Prop :=
  (∃ n ∈ samplerNames, dictGet d "name".toList = some n) ∧
  (∀ v, dictGet d "step_size".toList = some v → v ≠ [] ∧ v.all numChar = true) ∧
  (∀ v, dictGet d "n".toList = some v → v.all numChar = true) ∧
  (∀ v, dictGet d "num_flips".toList = some v → v.all numChar = true) ∧
  (∀ v, dictGet d "balancing_fn_type".toList = some v → v ∈ balancingNames)

/-- The keys that `process_keys` removes. -/
def removedKeys (d : ExpDict) : List (List Char) :=
  ["solver", "approx_with_grad"].map String.toList ++
    ("adaptive".toList :: if (dictGet d "adaptive".toList).isSome then
      ["step_size", "n", "num_flips"].map String.toList else []) ++ ["balancing_fn_type".toList]

/-- What the label shows. -/
structure Shown where
  /-- The sampler. -/
  name : Option (List Char)
  /-- Is the solver `euler_forward`? -/
  forward : Bool
  /-- Is adaptation switched off explicitly? -/
  fixed : Bool
  /-- The step size, if the key `adaptive` is present. -/
  step : Option (List Char)
  /-- The numbers `n` and `num_flips`, if the key `adaptive` is present. -/
  numbers : List (List Char)
  balancing : Option (List Char)
  deriving DecidableEq

/-- What the label of an experiment shows. -/
def shownSettings (d : ExpDict) : Shown where
  name := dictGet d "name".toList
  forward := decide (dictGet d "solver".toList = some "euler_forward".toList)
  fixed := decide (dictGet d "adaptive".toList = some "False".toList)
  step := if (dictGet d "adaptive".toList).isSome then dictGet d "step_size".toList else none
  numbers :=
    if (dictGet d "adaptive".toList).isSome then
      [dictGet d "n".toList, dictGet d "num_flips".toList].reduceOption else []
  balancing := dictGet d "balancing_fn_type".toList

end Spec

open Spec

theorem dictGet_del (d : ExpDict) (k k' : List Char) :
    dictGet (dictDel d k) k' = if k' = k then none else dictGet d k' := by
  induction d with
  | nil => simp [dictGet, dictDel]
  | cons p d ih =>
    simp only [dictGet, dictDel] at ih
    by_cases h : p.1 = k
    · by_cases h' : k' = k
      · simp [dictGet, dictDel, h', h]
      · have h'' : ¬ p.1 = k' := fun e => h' (e.symm.trans h)
        rw [if_neg h'] at ih ⊢
        simp only [dictGet, dictDel, List.filter_cons, h, ne_eq, not_true_eq_false, decide_false, Bool.false_eq_true,
          if_false, List.find?_cons]
        rw [h] at h''
        simpa [h''] using ih
    · by_cases h' : p.1 = k'
      · have h'' : ¬ k' = k := fun e => h (h'.trans e)
        simp [dictGet, dictDel, h', h'']
      · simp only [dictGet, dictDel, List.filter_cons, h, ne_eq, not_false_eq_true, decide_true, if_true,
          List.find?_cons, h', decide_false]
        exact ih

/-- The label as a sequence of parts. -/
private def labelOf (d : ExpDict) (n : List Char) : List Char :=
  shortName n ++ ((if (shownSettings d).forward then "f".toList else []) ++
    ((if (shownSettings d).fixed then "-nA".toList else []) ++
      ((shownSettings d).step.getD [] ++ ((shownSettings d).numbers.flatMap ('-' :: ·) ++ ((shownSettings d).balancing.map balSuffix).getD []))))

/-- A step that appends `s` to the name and removes the keys `K`. -/
private def Eff (d d' : ExpDict) (s : List Char) (K : List (List Char)) : Prop :=
  (∀ n, dictGet d "name".toList = some n → dictGet d' "name".toList = some (n ++ s)) ∧
  ∀ k, k ≠ "name".toList → dictGet d' k = if k ∈ K then none else dictGet d k

private theorem Eff.refl (d : ExpDict) : Eff d d [] [] :=
  ⟨fun n h => by rw [h, List.append_nil], fun k _ => by simp⟩

private theorem Eff.trans {d d1 d2 : ExpDict} {s s' : List Char} {K K' : List (List Char)} (h : Eff d d1 s K)
    (h' : Eff d1 d2 s' K') : Eff d d2 (s ++ s') (K ++ K') := by
  refine ⟨fun n hn => ?_, fun k hk => ?_⟩
  · rw [← List.append_assoc]
    exact h'.1 _ (h.1 _ hn)
  · rw [h'.2 k hk, h.2 k hk]
    by_cases h1 : k ∈ K <;> by_cases h2 : k ∈ K' <;> simp [h1, h2]

private theorem eff_append (d : ExpDict) (s : List Char) : Eff d (nameAppend d s) s [] := by
  refine ⟨fun n hn => ?_, fun k hk => ?_⟩
  · rw [nameAppend, dictGet_set, if_pos rfl, hn, Option.getD_some]
  · rw [nameAppend, dictGet_set, if_neg hk]
    simp

private theorem eff_del (d : ExpDict) {k : List Char} (hk : "name".toList ≠ k) : Eff d (dictDel d k) [] [k] := by
  refine ⟨fun n hn => ?_, fun k' hk' => ?_⟩
  · rw [dictGet_del, if_neg hk, hn, List.append_nil]
  · rw [dictGet_del]
    simp only [List.mem_singleton]

private theorem eff_absent {d : ExpDict} {k : List Char} (h : dictGet d k = none) : Eff d d [] [k] := by
  refine ⟨fun n hn => by rw [hn, List.append_nil], fun k' _ => ?_⟩
  by_cases e : k' = k
  · rw [e, h, if_pos (List.mem_singleton.2 rfl)]
  · rw [if_neg (by simpa using e)]

private theorem eff_solver (d : ExpDict) :
    Eff d (keySolver d) (if dictGet d "solver".toList = some "euler_forward".toList then "f".toList else [])
      ["solver".toList] := by
  unfold keySolver
  cases hv : dictGet d "solver".toList with
  | none => exact eff_absent hv
  | some v =>
    by_cases he : v = "euler_forward".toList
    · have := (eff_append d "f".toList).trans (eff_del (nameAppend d "f".toList) (k := "solver".toList) (by decide))
      rw [List.append_nil] at this
      rw [if_pos (congrArg some he)]
      dsimp only
      rw [if_pos he]
      exact this
    · rw [if_neg (fun e => he (Option.some.inj e))]
      dsimp only
      rw [if_neg he]
      exact eff_del d (by decide)

private theorem eff_value (d : ExpDict) (k sep : List Char) (hk : "name".toList ≠ k) :
    Eff d (keyValue k sep d) (((dictGet d k).map (sep ++ ·)).getD []) [k] := by
  unfold keyValue
  cases hv : dictGet d k with
  | none => exact eff_absent hv
  | some v =>
    have := (eff_append d (sep ++ v)).trans (eff_del (nameAppend d (sep ++ v)) hk)
    rw [List.append_nil] at this
    exact this

private theorem eff_balancing (d : ExpDict) :
    Eff d (keyBalancing d) (((dictGet d "balancing_fn_type".toList).map balSuffix).getD [])
      ["balancing_fn_type".toList] := by
  unfold keyBalancing
  cases hv : dictGet d "balancing_fn_type".toList with
  | none => exact eff_absent hv
  | some v =>
    have := (eff_append d (balSuffix v)).trans
      (eff_del (nameAppend d (balSuffix v)) (k := "balancing_fn_type".toList) (by decide))
    rw [List.append_nil] at this
    exact this

private theorem eff_adaptive (d : ExpDict) :
    Eff d (keyAdaptive d)
      ((if (shownSettings d).fixed then "-nA".toList else []) ++
        ((shownSettings d).step.getD [] ++ (shownSettings d).numbers.flatMap ('-' :: ·)))
      ("adaptive".toList :: if (dictGet d "adaptive".toList).isSome then
        ["step_size", "n", "num_flips"].map String.toList else []) := by
  unfold keyAdaptive shownSettings
  cases hv : dictGet d "adaptive".toList with
  | none =>
    have := eff_absent hv
    simpa using this
  | some v =>
    dsimp only
    set d0 := if v = "False".toList then nameAppend d "-nA".toList else d with hd0
    have e0 : Eff d d0 (if v = "False".toList then "-nA".toList else []) [] := by
      rw [hd0]
      split_ifs
      · exact eff_append _ _
      · exact Eff.refl d
    have e1 := e0.trans (eff_del d0 (k := "adaptive".toList) (by decide))
    have e2 := e1.trans (eff_value (dictDel d0 "adaptive".toList) "step_size".toList [] (by decide))
    have e3 := e2.trans (eff_value _ "n".toList "-".toList (by decide))
    have e4 := e3.trans (eff_value _ "num_flips".toList "-".toList (by decide))
    have g1 : dictGet (dictDel d0 "adaptive".toList) "step_size".toList = dictGet d "step_size".toList := by
      rw [e1.2 _ (by decide), if_neg (by decide)]
    have g2 := e2.2 "n".toList (by decide)
    rw [if_neg (by decide)] at g2
    have g3 := e3.2 "num_flips".toList (by decide)
    rw [if_neg (by decide)] at g3
    rw [g1] at e4
    rw [g2, g3] at e4
    convert e4 using 1
    · have hdash : "-".toList = ['-'] := rfl
      simp only [Option.some.injEq, decide_eq_true_eq, Option.isSome_some, if_true, List.append_nil, List.append_assoc,
        hdash]
      congr 1
      generalize dictGet d "step_size".toList = a
      generalize dictGet d "n".toList = b
      generalize dictGet d "num_flips".toList = c
      cases a <;> cases b <;> cases c <;> simp [List.reduceOption]
    · rfl

/-- **C96 (what the label is).**  The name shows the settings one after the other; the keys it shows are removed, the
others are kept. -/
private theorem processKeys_name {d : ExpDict} {n : List Char} (hn : dictGet d "name".toList = some n) :
    ∃ d', processKeys d = some d' ∧ dictGet d' "name".toList = some (labelOf d n) ∧
      ∀ k, k ≠ "name".toList → dictGet d' k = if k ∈ removedKeys d then none else dictGet d k := by
  refine ⟨_, by rw [processKeys, hn]; rfl, ?_⟩
  dsimp only
  set d0 := dictSet d "name".toList (shortName n)
  have g0 : ∀ k, k ≠ "name".toList → dictGet d0 k = dictGet d k := fun k hk => by
    rw [dictGet_set, if_neg hk]
  have e2 := (eff_solver d0).trans (eff_del (keySolver d0) (k := "approx_with_grad".toList) (by decide))
  have e3 := e2.trans (eff_adaptive (dictDel (keySolver d0) "approx_with_grad".toList))
  have e4 := e3.trans (eff_balancing _)
  have hs : ∀ k, k ≠ "name".toList → k ∉ ["solver".toList] ++ ["approx_with_grad".toList] →
      dictGet (dictDel (keySolver d0) "approx_with_grad".toList) k = dictGet d k := fun k hk hk' => by
    rw [e2.2 k hk, if_neg hk', g0 k hk]
  have gb := e3.2 "balancing_fn_type".toList (by decide)
  rw [if_neg (by split_ifs <;> decide), g0 _ (by decide)] at gb
  rw [gb] at e4
  have hsh : ∀ s : Shown, s = shownSettings (dictDel (keySolver d0) "approx_with_grad".toList) →
      s.fixed = (shownSettings d).fixed ∧ s.step = (shownSettings d).step ∧ s.numbers = (shownSettings d).numbers := by
    rintro s rfl
    unfold shownSettings
    rw [hs "adaptive".toList (by decide) (by decide), hs "step_size".toList (by decide) (by decide),
      hs "n".toList (by decide) (by decide), hs "num_flips".toList (by decide) (by decide)]
    exact ⟨rfl, rfl, rfl⟩
  obtain ⟨h1, h2, h3⟩ := hsh _ rfl
  rw [h1, h2, h3, hs "adaptive".toList (by decide) (by decide), g0 "solver".toList (by decide)] at e4
  constructor
  · rw [e4.1 (shortName n) (by rw [dictGet_set, if_pos rfl])]
    simp only [labelOf, shownSettings, decide_eq_true_eq, List.append_nil, List.append_assoc]
  · intro k hk
    rw [e4.2 k hk, g0 k hk]
    rfl

/-! ### Reading a label -/

private theorem prefix_free {A : List (List Char)} (hA : ∀ a ∈ A, ∀ b ∈ A, a <+: b → a = b) {a b x y : List Char}
    (ha : a ∈ A) (hb : b ∈ A) (h : a ++ x = b ++ y) : a = b ∧ x = y := by
  have hab : a = b := by
    rcases List.prefix_or_prefix_of_prefix (List.prefix_append a x) (h ▸ List.prefix_append b y) with hp | hp
    · exact hA a ha b hb hp
    · exact (hA b hb a ha hp).symm
  subst hab
  exact ⟨rfl, List.append_cancel_left h⟩

/-- A word over the characters `p`, followed by something that does not begin with such a character. -/
private theorem span_inj {p : Char → Bool} {a b x y : List Char} (ha : a.all p = true) (hb : b.all p = true)
    (hx : ∀ c ∈ x.head?, p c = false) (hy : ∀ c ∈ y.head?, p c = false) (h : a ++ x = b ++ y) : a = b ∧ x = y := by
  have key : ∀ a x : List Char, a.all p = true → (∀ c ∈ x.head?, p c = false) →
      (a ++ x).takeWhile p = a ∧ (a ++ x).dropWhile p = x := by
    intro a x ha hx
    induction a with
    | nil =>
      cases x with
      | nil => simp
      | cons c x => simp [hx c (by simp)]
    | cons c a ih =>
      rw [List.all_cons, Bool.and_eq_true] at ha
      have := ih ha.2
      simp [ha.1, this.1, this.2]
  have k1 := key a x ha hx
  have k2 := key b y hb hy
  rw [h] at k1
  exact ⟨k1.1.symm.trans k2.1, k1.2.symm.trans k2.2⟩

private theorem flatMap_dash_inj : ∀ l l' : List (List Char), (∀ v ∈ l, v.all numChar = true) →
    (∀ v ∈ l', v.all numChar = true) → ∀ x y : List Char, (∀ c ∈ x.head?, c = '(') → (∀ c ∈ y.head?, c = '(') →
    l.flatMap ('-' :: ·) ++ x = l'.flatMap ('-' :: ·) ++ y → l = l' ∧ x = y := by
  have hnum : numChar '-' = false := by decide
  have hpar : numChar '(' = false := by decide
  have head : ∀ (l : List (List Char)) (x : List Char), (∀ c ∈ x.head?, c = '(') →
      ∀ c ∈ (l.flatMap ('-' :: ·) ++ x).head?, numChar c = false := by
    intro l x hx c hc
    cases l with
    | nil => rw [hx c (by simpa using hc)]; exact hpar
    | cons v l =>
      simp at hc
      rw [← hc]
      exact hnum
  intro l
  induction l with
  | nil =>
    intro l' _ _ x y hx hy h
    cases l' with
    | nil => exact ⟨rfl, by simpa using h⟩
    | cons v l' =>
      simp only [List.flatMap_nil, List.nil_append, List.flatMap_cons, List.cons_append] at h
      have := hx '-' (by rw [h]; simp)
      exact absurd this (by decide)
  | cons v l ih =>
    intro l' hl hl' x y hx hy h
    cases l' with
    | nil =>
      simp only [List.flatMap_nil, List.nil_append, List.flatMap_cons, List.cons_append] at h
      have := hy '-' (by rw [← h]; simp)
      exact absurd this (by decide)
    | cons v' l' =>
      simp only [List.flatMap_cons, List.cons_append, List.cons.injEq, true_and, List.append_assoc] at h
      obtain ⟨h1, h2⟩ := span_inj (hl v (by simp)) (hl' v' (by simp)) (head l x hx) (head l' y hy) h
      obtain ⟨h3, h4⟩ := ih l' (fun w hw => hl w (by simp [hw])) (fun w hw => hl' w (by simp [hw])) x y hx hy h2
      exact ⟨by rw [h1, h3], h4⟩

private theorem short_inj : ∀ a ∈ samplerNames, ∀ b ∈ samplerNames, shortName a = shortName b → a = b := by decide

private theorem short_free : ∀ a ∈ samplerNames.map shortName, ∀ b ∈ samplerNames.map shortName, a <+: b → a = b := by
  decide

private theorem bal_inj : ∀ a ∈ balancingNames, ∀ b ∈ balancingNames, balSuffix a = balSuffix b → a = b := by decide

private theorem bal_head : ∀ a ∈ balancingNames, (balSuffix a).head? = some '(' := by decide

/-- Conditions on what is shown. -/
private structure Fine (s : Shown) : Prop where
  step : ∀ v ∈ s.step, v ≠ [] ∧ v.all numChar = true
  numbers : ∀ v ∈ s.numbers, v.all numChar = true
  balancing : ∀ v ∈ s.balancing, v ∈ balancingNames

private def tailOf (s : Shown) : List Char :=
  s.step.getD [] ++ (s.numbers.flatMap ('-' :: ·) ++ (s.balancing.map balSuffix).getD [])

private theorem bal_par {s : Shown} (h : Fine s) : ∀ c ∈ ((s.balancing.map balSuffix).getD []).head?, c = '(' := by
  intro c hc
  cases hb : s.balancing with
  | none => rw [hb] at hc; simp at hc
  | some v =>
    rw [hb] at hc
    have := bal_head v (h.balancing v hb)
    simp only [Option.map_some, Option.getD_some, this, Option.mem_def, Option.some.injEq] at hc
    exact hc.symm

private theorem after_head {s : Shown} (h : Fine s) :
    ∀ c ∈ (s.numbers.flatMap ('-' :: ·) ++ (s.balancing.map balSuffix).getD []).head?, c = '-' ∨ c = '(' := by
  intro c hc
  cases hn : s.numbers with
  | nil =>
    rw [hn] at hc
    exact Or.inr (bal_par h c (by simpa using hc))
  | cons v l =>
    rw [hn] at hc
    simp at hc
    exact Or.inl hc.symm

private theorem tail_head {s : Shown} (h : Fine s) :
    ∀ c ∈ (tailOf s).head?, numChar c = true ∨ c = '-' ∨ c = '(' := by
  intro c hc
  unfold tailOf at hc
  cases hs : s.step with
  | none =>
    rw [hs] at hc
    exact Or.inr (after_head h c (by simpa using hc))
  | some v =>
    rw [hs] at hc
    obtain ⟨h1, h2⟩ := h.step v hs
    cases v with
    | nil => exact absurd rfl h1
    | cons a v =>
      simp at hc
      rw [List.all_cons, Bool.and_eq_true] at h2
      exact Or.inl (hc ▸ h2.1)

private theorem tail_not_n {s : Shown} (h : Fine s) (r : List Char) : tailOf s ≠ '-' :: 'n' :: r := by
  intro e
  unfold tailOf at e
  cases hs : s.step with
  | some v =>
    rw [hs] at e
    obtain ⟨h1, h2⟩ := h.step v hs
    cases v with
    | nil => exact h1 rfl
    | cons a v =>
      rw [List.all_cons, Bool.and_eq_true] at h2
      simp only [Option.getD_some, List.cons_append, List.cons.injEq] at e
      rw [e.1] at h2
      exact absurd h2.1 (by decide)
  | none =>
    rw [hs] at e
    cases hn : s.numbers with
    | nil =>
      rw [hn] at e
      simp only [Option.getD_none, List.flatMap_nil, List.nil_append] at e
      have := bal_par h '-' (by rw [e]; rfl)
      exact absurd this (by decide)
    | cons v l =>
      have hv := h.numbers v (by rw [hn]; simp)
      rw [hn] at e
      simp only [Option.getD_none, List.flatMap_cons, List.cons_append, List.cons.injEq, List.nil_append,
        List.append_assoc, true_and] at e
      cases v with
      | cons a v =>
        rw [List.all_cons, Bool.and_eq_true] at hv
        simp only [List.cons_append, List.cons.injEq] at e
        rw [e.1] at hv
        exact absurd hv.1 (by decide)
      | nil =>
        have hf : Fine { s with numbers := l } :=
          ⟨h.step, fun w hw => h.numbers w (by rw [hn]; exact List.mem_cons_of_mem _ hw), h.balancing⟩
        have := after_head hf 'n' (by
          rw [List.nil_append] at e
          dsimp only
          rw [e]
          rfl)
        exact absurd this (by decide)

private theorem shown_inj {s t : Shown} (hs : Fine s) (ht : Fine t)
    (h : (if s.forward then "f".toList else []) ++ ((if s.fixed then "-nA".toList else []) ++ tailOf s)
      = (if t.forward then "f".toList else []) ++ ((if t.fixed then "-nA".toList else []) ++ tailOf t)) :
    s.forward = t.forward ∧ s.fixed = t.fixed ∧ s.step = t.step ∧ s.numbers = t.numbers ∧
      s.balancing = t.balancing := by
  have hnf : numChar 'f' = false := by decide
  have headf : ∀ s : Shown, Fine s → ∀ c ∈ ((if s.fixed then "-nA".toList else []) ++ tailOf s).head?,
      (c == 'f') = false := by
    intro s hs c hc
    rw [beq_eq_false_iff_ne]
    rintro rfl
    cases hf : s.fixed with
    | true =>
      rw [hf] at hc
      exact absurd hc (by simp)
    | false =>
      rw [hf] at hc
      rcases tail_head hs 'f' (by simpa using hc) with h1 | h1 | h1
      · rw [hnf] at h1; exact absurd h1 (by decide)
      · exact absurd h1 (by decide)
      · exact absurd h1 (by decide)
  have hall : ∀ b : Bool, (if b then "f".toList else []).all (· == 'f') = true := by decide
  obtain ⟨hF, hR⟩ := span_inj (hall s.forward) (hall t.forward) (headf s hs) (headf t ht) h
  have hna : "-nA".toList = ['-', 'n', 'A'] := rfl
  have hfix : s.fixed = t.fixed ∧ tailOf s = tailOf t := by
    rw [hna] at hR
    cases h1 : s.fixed <;> cases h2 : t.fixed <;> rw [h1, h2] at hR
    · exact ⟨rfl, by simpa using hR⟩
    · exact absurd (by simpa using hR) (tail_not_n hs _)
    · exact absurd (by simpa using hR.symm) (tail_not_n ht _)
    · exact ⟨rfl, by simpa using hR⟩
  have hnum : ∀ s : Shown, Fine s → ∀ c ∈ (s.numbers.flatMap ('-' :: ·) ++
      (s.balancing.map balSuffix).getD []).head?, numChar c = false := by
    intro s hs c hc
    rcases after_head hs c hc with rfl | rfl <;> decide
  have hst : ∀ s : Shown, Fine s → (s.step.getD []).all numChar = true := by
    intro s hs
    cases h : s.step with
    | none => rfl
    | some v => exact (hs.step v h).2
  obtain ⟨hS, hT⟩ := span_inj (hst s hs) (hst t ht) (hnum s hs) (hnum t ht) hfix.2
  obtain ⟨hN, hB⟩ := flatMap_dash_inj _ _ hs.numbers ht.numbers _ _ (bal_par hs) (bal_par ht) hT
  refine ⟨?_, hfix.1, ?_, hN, ?_⟩
  · cases h1 : s.forward <;> cases h2 : t.forward <;> rw [h1, h2] at hF <;> first | rfl | exact absurd hF (by decide)
  · cases h1 : s.step with
    | none =>
      cases h2 : t.step with
      | none => rfl
      | some v => rw [h1, h2] at hS; exact absurd hS.symm (ht.step v h2).1
    | some u =>
      cases h2 : t.step with
      | none => rw [h1, h2] at hS; exact absurd hS (hs.step u h1).1
      | some v => rw [h1, h2] at hS; exact congrArg some hS
  · cases h1 : s.balancing with
    | none =>
      cases h2 : t.balancing with
      | none => rfl
      | some v =>
        rw [h1, h2] at hB
        have := bal_head v (ht.balancing v h2)
        simp only [Option.map_none, Option.getD_none, Option.map_some, Option.getD_some] at hB
        rw [← hB] at this
        exact absurd this (by simp)
    | some u =>
      cases h2 : t.balancing with
      | none =>
        rw [h1, h2] at hB
        have := bal_head u (hs.balancing u h1)
        simp only [Option.map_none, Option.getD_none, Option.map_some, Option.getD_some] at hB
        rw [hB] at this
        exact absurd this (by simp)
      | some v =>
        rw [h1, h2] at hB
        exact congrArg some (bal_inj u (hs.balancing u h1) v (ht.balancing v h2) hB)

private theorem shown_fine {d : ExpDict} (h : Recognised d) : Fine (shownSettings d) := by
  obtain ⟨-, hs, ha, hf, hb⟩ := h
  refine ⟨fun v hv => ?_, fun v hv => ?_, fun v hv => hb v hv⟩
  · simp only [shownSettings] at hv
    split_ifs at hv with h
    · exact hs v hv
    · simp at hv
  · simp only [shownSettings] at hv
    split_ifs at hv with h
    · rw [List.reduceOption, List.mem_filterMap] at hv
      simp only [id_eq, exists_eq_right]  at hv
      simp only [List.mem_cons, List.not_mem_nil, or_false] at hv
      rcases hv with hv | hv
      · exact ha v hv.symm
      · exact hf v hv.symm
    · simp at hv

/-- What follows the sampler in a label. -/
def labelRest (d : ExpDict) : List Char :=
  (if (shownSettings d).forward then "f".toList else []) ++
    ((if (shownSettings d).fixed then "-nA".toList else []) ++
      ((shownSettings d).step.getD [] ++ ((shownSettings d).numbers.flatMap ('-' :: ·) ++
        ((shownSettings d).balancing.map balSuffix).getD [])))

/-- It determines the settings that it shows. -/
theorem labelRest_inj {d₁ d₂ : ExpDict} (h₁ : Recognised d₁) (h₂ : Recognised d₂) (h : labelRest d₁ = labelRest d₂) :
    { shownSettings d₁ with name := none } = { shownSettings d₂ with name := none } := by
  obtain ⟨i1, i2, i3, i4, i5⟩ := shown_inj (shown_fine h₁) (shown_fine h₂) h
  dsimp only
  rw [i1, i2, i3, i4, i5]

/-- The programs that do not remove `approx_with_grad` append the same to the short name they use. -/
theorem keys_name (d : ExpDict) (w : List Char) :
    dictGet (keyBalancing (keyAdaptive (keySolver (dictSet d "name".toList w)))) "name".toList =
      some (w ++ labelRest d) := by
  set d0 := dictSet d "name".toList w
  have g0 : ∀ k, k ≠ "name".toList → dictGet d0 k = dictGet d k := fun k hk => by
    rw [dictGet_set, if_neg hk]
  have e2 := eff_solver d0
  have e3 := e2.trans (eff_adaptive (keySolver d0))
  have e4 := e3.trans (eff_balancing _)
  have hs : ∀ k, k ≠ "name".toList → k ∉ ["solver".toList] → dictGet (keySolver d0) k = dictGet d k := fun k hk hk' => by
    rw [e2.2 k hk, if_neg hk', g0 k hk]
  have gb := e3.2 "balancing_fn_type".toList (by decide)
  rw [if_neg (by split_ifs <;> decide), g0 _ (by decide)] at gb
  rw [gb] at e4
  have hsh : ∀ s : Shown, s = shownSettings (keySolver d0) →
      s.fixed = (shownSettings d).fixed ∧ s.step = (shownSettings d).step ∧ s.numbers = (shownSettings d).numbers := by
    rintro s rfl
    unfold shownSettings
    rw [hs "adaptive".toList (by decide) (by decide), hs "step_size".toList (by decide) (by decide),
      hs "n".toList (by decide) (by decide), hs "num_flips".toList (by decide) (by decide)]
    exact ⟨rfl, rfl, rfl⟩
  obtain ⟨h1, h2, h3⟩ := hsh _ rfl
  rw [h1, h2, h3, g0 "solver".toList (by decide)] at e4
  rw [e4.1 w (by rw [dictGet_set, if_pos rfl])]
  simp only [labelRest, shownSettings, decide_eq_true_eq, List.append_assoc]

/-- **C96 (labels in plots).**  For the values that sweeps use, two experiments have the same label if and only if they
agree in everything that is shown: sampler, forward solver or not, adaptation switched off or not, step size and
numbers of flips (if the key `adaptive` is present), balancing function. -/
theorem label_iff {d₁ d₂ p₁ p₂ : ExpDict} (h₁ : Recognised d₁) (h₂ : Recognised d₂) (e₁ : processKeys d₁ = some p₁)
    (e₂ : processKeys d₂ = some p₂) :
    dictGet p₁ "name".toList = dictGet p₂ "name".toList ↔ shownSettings d₁ = shownSettings d₂ := by
  have f₁ := shown_fine h₁
  have f₂ := shown_fine h₂
  obtain ⟨n₁, hn₁, g₁⟩ := h₁.1
  obtain ⟨n₂, hn₂, g₂⟩ := h₂.1
  obtain ⟨p, hp, hl₁, -⟩ := processKeys_name g₁
  obtain rfl := Option.some.inj (hp.symm.trans e₁)
  obtain ⟨p', hp', hl₂, -⟩ := processKeys_name g₂
  obtain rfl := Option.some.inj (hp'.symm.trans e₂)
  rw [hl₁, hl₂, Option.some.injEq]
  constructor
  · intro h
    obtain ⟨hn, hr⟩ := prefix_free short_free (List.mem_map_of_mem hn₁) (List.mem_map_of_mem hn₂) h
    obtain ⟨i1, i2, i3, i4, i5⟩ := shown_inj f₁ f₂ hr
    have i0 : (shownSettings d₁).name = (shownSettings d₂).name := by
      show dictGet d₁ "name".toList = dictGet d₂ "name".toList
      rw [g₁, g₂, short_inj n₁ hn₁ n₂ hn₂ hn]
    generalize shownSettings d₁ = s at *
    generalize shownSettings d₂ = t at *
    cases s
    cases t
    simp only at *
    simp only [i0, i1, i2, i3, i4, i5]
  · intro h
    have : dictGet d₁ "name".toList = dictGet d₂ "name".toList := congrArg Shown.name h
    rw [g₁, g₂] at this
    rw [labelOf, labelOf, h, Option.some.inj this]

/-- **C96 (what is removed).**  Keys that go into the label are removed from the experiment's dictionary, so is
`approx_with_grad`, which goes nowhere; all others are kept. -/
theorem processKeys_keys {d p : ExpDict} (h : processKeys d = some p) (k : List Char) (hk : k ≠ "name".toList) :
    dictGet p k = if k ∈ removedKeys d then none else dictGet d k := by
  cases hn : dictGet d "name".toList with
  | none => rw [processKeys, hn] at h; exact absurd h (by simp)
  | some n =>
    obtain ⟨p', hp', -, hkeys⟩ := processKeys_name hn
    obtain rfl := Option.some.inj (hp'.symm.trans h)
    exact hkeys k hk

/-- **C96 (refuted: `approx_with_grad`).**  Experiments that differ only in `approx_with_grad` have the same label and
the same remaining settings: their results go into one bar. -/
theorem approx_invisible {d₁ d₂ p₁ p₂ : ExpDict}
    (h : ∀ k, k ≠ "approx_with_grad".toList → dictGet d₁ k = dictGet d₂ k)
    (e₁ : processKeys d₁ = some p₁) (e₂ : processKeys d₂ = some p₂) (k : List Char) :
    dictGet p₁ k = dictGet p₂ k := by
  have hshown : shownSettings d₁ = shownSettings d₂ := by
    unfold shownSettings
    rw [h _ (by decide), h _ (by decide), h _ (by decide), h _ (by decide), h _ (by decide), h _ (by decide),
      h _ (by decide)]
  have hrem : removedKeys d₁ = removedKeys d₂ := by
    unfold removedKeys
    rw [h _ (by decide)]
  by_cases hk : k = "name".toList
  · subst hk
    have hname : dictGet d₁ "name".toList = dictGet d₂ "name".toList := h _ (by decide)
    cases hn : dictGet d₁ "name".toList with
    | none => rw [processKeys, hn] at e₁; exact absurd e₁ (by simp)
    | some n =>
      obtain ⟨q₁, hq₁, l₁, -⟩ := processKeys_name hn
      obtain ⟨q₂, hq₂, l₂, -⟩ := processKeys_name (hname ▸ hn)
      obtain rfl := Option.some.inj (hq₁.symm.trans e₁)
      obtain rfl := Option.some.inj (hq₂.symm.trans e₂)
      rw [l₁, l₂, labelOf, labelOf, hshown]
  · rw [processKeys_keys e₁ k hk, processKeys_keys e₂ k hk, hrem]
    by_cases ha : k = "approx_with_grad".toList
    · have hm : "approx_with_grad".toList ∈ removedKeys d₂ :=
        List.mem_append_left _ (List.mem_append_left _ (by decide))
      rw [ha, if_pos hm, if_pos hm]
    · rw [h k ha]

/-- **C96 (refuted: blocks).**  The label of the Hamming-ball sampler says block size 10 and radius 1, that of block
Gibbs block size 2, whatever was configured. -/
theorem block_label (b : List Char) :
    (processKeys [("name".toList, "hammingball".toList), ("block_size".toList, b)]).map (dictGet · "name".toList)
        = some (some "hb-10-1".toList) ∧
      (processKeys [("name".toList, "blockgibbs".toList), ("block_size".toList, b)]).map (dictGet · "name".toList)
        = some (some "bg-2".toList) := by
  constructor <;> rfl

/-- What the balancing function adds in `results.csv`. -/
private def saverBal : Option (List Char) → List Char
  | none => []
  | some v =>
    if v = "RATIO".toList then "(ratio)".toList
    else if v = "MAX".toList then "(max)".toList
    else if v = "MIN".toList then "(min)".toList
    else "(sqrt)".toList

private theorem saverName_eq (c : SaverConfig) :
    saverName c = (if c.adaptive.isSome then "a_".toList ++ c.name else c.name) ++
      ((if c.solver = some "euler_forward".toList then "f".toList else []) ++ saverBal c.balancing) := by
  unfold saverName saverBal
  generalize (if c.adaptive.isSome then "a_".toList ++ c.name else c.name) = s
  dsimp only
  have hf : (if c.solver = some "euler_forward".toList then s ++ "f".toList else s)
      = s ++ if c.solver = some "euler_forward".toList then "f".toList else [] := by
    split_ifs
    · rfl
    · rw [List.append_nil]
  rw [hf, ← List.append_assoc]
  generalize (s ++ if c.solver = some "euler_forward".toList then "f".toList else []) = t
  cases c.balancing with
  | none => rw [List.append_nil]
  | some v =>
    dsimp only
    split_ifs <;> rfl

private theorem saver_free : ∀ a ∈ samplerNames ++ samplerNames.map ("a_".toList ++ ·),
    ∀ b ∈ samplerNames ++ samplerNames.map ("a_".toList ++ ·), a <+: b → a = b := by decide

private theorem saver_pre : ∀ a ∈ samplerNames, ∀ b ∈ samplerNames, ∀ x y : Bool,
    (if x then "a_".toList ++ a else a) = (if y then "a_".toList ++ b else b) → a = b ∧ x = y := by decide

private theorem saverBal_head (b : Option (List Char)) (_ : ∀ v ∈ b, v ∈ balancingNames) :
    ∀ c ∈ (saverBal b).head?, c = '(' := by
  intro c hc
  cases b with
  | none => simp [saverBal] at hc
  | some v =>
    have : (saverBal (some v)).head? = some '(' := by
      unfold saverBal
      dsimp only
      split_ifs <;> rfl
    rw [this] at hc
    exact (Option.some.inj hc).symm

private theorem saverBal_inj {b b' : Option (List Char)} (h : ∀ v ∈ b, v ∈ balancingNames)
    (h' : ∀ v ∈ b', v ∈ balancingNames) (e : saverBal b = saverBal b') : b = b' := by
  have fin : ∀ x ∈ none :: balancingNames.map some, ∀ y ∈ none :: balancingNames.map some,
      saverBal x = saverBal y → x = y := by decide
  have mem : ∀ b : Option (List Char), (∀ v ∈ b, v ∈ balancingNames) → b ∈ none :: balancingNames.map some := by
    intro b hb
    cases b with
    | none => exact List.mem_cons_self
    | some v => exact List.mem_cons_of_mem _ (List.mem_map_of_mem (hb v rfl))
  exact fin b (mem b h) b' (mem b' h') e

/-- **C96 (`results.csv`).**  For the known samplers the column `sampler` tells samplers, forward solver and
balancing functions apart, and whether the configuration has an entry `adaptive`. -/
theorem saver_iff {c₁ c₂ : SaverConfig} (h₁ : c₁.name ∈ samplerNames) (h₂ : c₂.name ∈ samplerNames)
    (b₁ : ∀ v ∈ c₁.balancing, v ∈ balancingNames) (b₂ : ∀ v ∈ c₂.balancing, v ∈ balancingNames) :
    saverName c₁ = saverName c₂ ↔ c₁.name = c₂.name ∧ c₁.adaptive.isSome = c₂.adaptive.isSome ∧
      (c₁.solver = some "euler_forward".toList ↔ c₂.solver = some "euler_forward".toList) ∧
      c₁.balancing = c₂.balancing := by
  rw [saverName_eq c₁, saverName_eq c₂]
  constructor
  · intro h
    have mem : ∀ c : SaverConfig, c.name ∈ samplerNames →
        (if c.adaptive.isSome then "a_".toList ++ c.name else c.name)
          ∈ samplerNames ++ samplerNames.map ("a_".toList ++ ·) := by
      intro c hc
      split_ifs
      · exact List.mem_append_right _ (List.mem_map_of_mem hc)
      · exact List.mem_append_left _ hc
    obtain ⟨i1, i2⟩ := prefix_free saver_free (mem c₁ h₁) (mem c₂ h₂) h
    have hall : ∀ b : Prop, ∀ [Decidable b], (if b then "f".toList else []).all (· == 'f') = true := by
      intro b _
      split_ifs <;> decide
    obtain ⟨i3, i4⟩ := span_inj (hall _) (hall _) (fun c hc => (saverBal_head _ b₁ c hc) ▸ (by decide))
      (fun c hc => (saverBal_head _ b₂ c hc) ▸ (by decide)) i2
    have i5 := saver_pre c₁.name h₁ c₂.name h₂ c₁.adaptive.isSome c₂.adaptive.isSome i1
    refine ⟨i5.1, i5.2, ?_, saverBal_inj b₁ b₂ i4⟩
    by_cases f1 : c₁.solver = some "euler_forward".toList <;> by_cases f2 : c₂.solver = some "euler_forward".toList
    · exact ⟨fun _ => f2, fun _ => f1⟩
    · rw [if_pos f1, if_neg f2] at i3; exact absurd i3 (by decide)
    · rw [if_neg f1, if_pos f2] at i3; exact absurd i3 (by decide)
    · exact ⟨fun h => absurd h f1, fun h => absurd h f2⟩
  · rintro ⟨h1, h2, h3, h4⟩
    rw [h1, h2, h4]
    simp only [h3]

/-- **C96 (refuted: `adaptive=False` in `results.csv`).**  Samplers with adaptation switched off are listed under the
name of the adaptive ones. -/
theorem saver_adaptive (n : List Char) (s b : Option (List Char)) :
    saverName ⟨n, some false, s, b⟩ = saverName ⟨n, some true, s, b⟩ := rfl

/-- Two recognised experiments with different labels. -/
example : Recognised [("name".toList, "dmala".toList), ("adaptive".toList, "False".toList),
      ("step_size".toList, "0.2".toList), ("balancing_fn_type".toList, "SQRT".toList)] ∧
    (processKeys [("name".toList, "dmala".toList), ("adaptive".toList, "False".toList),
      ("step_size".toList, "0.2".toList), ("balancing_fn_type".toList, "SQRT".toList)]).map (dictGet · "name".toList)
      = some (some "dmala-nA0.2(s)".toList) := by
  refine ⟨⟨⟨_, by decide, rfl⟩, ?_, ?_, ?_, ?_⟩, by decide⟩
  · rintro v hv
    obtain rfl := Option.some.inj hv
    exact ⟨by decide, by decide⟩
  · rintro v hv
    exact absurd (hv.symm.trans (show _ = none from by decide)) (by simp)
  · rintro v hv
    exact absurd (hv.symm.trans (show _ = none from by decide)) (by simp)
  · rintro v hv
    obtain rfl := Option.some.inj hv
    decide

end Discs
