import Verif.Model.Ticks
import Verif.Props.FloatText
import Verif.Props.FolderNames

/-!
# Ticks of the bars (C97)
-/

namespace Discs
open Spec

/-! ### Reading numbers -/

private theorem takeWhile_all {p : Char → Bool} {a r : List Char} (ha : ∀ c ∈ a, p c = true)
    (hr : ∀ c ∈ r.head?, p c = false) : (a ++ r).takeWhile p = a ∧ (a ++ r).dropWhile p = r := by
  induction a with
  | nil =>
    cases r with
    | nil => simp
    | cons c r => have := hr c rfl; simp [this]
  | cons c a ih =>
    have hc := ha c List.mem_cons_self
    obtain ⟨h1, h2⟩ := ih fun c h => ha c (List.mem_cons_of_mem _ h)
    simp [hc, h1, h2]

private theorem digits_digit (n : ℕ) : ∀ c ∈ Nat.toDigits 10 n, c.isDigit = true :=
  fun _ h => Nat.isDigit_of_mem_toDigits (by norm_num) (by norm_num) h

private theorem fracDigits_eq : ∀ l, fracDigits l = fracValue l
  | [] => rfl
  | c :: l => by rw [fracDigits, fracValue, fracDigits_eq l]

private theorem readPos_point (n : ℕ) {ds : List Char} (hd : ∀ c ∈ ds, c.isDigit = true) (h0 : ds ≠ []) :
    readPos (Nat.toDigits 10 n ++ '.' :: ds) = some (n + fracValue ds) := by
  obtain ⟨h1, h2⟩ := takeWhile_all (r := '.' :: ds) (digits_digit n) (by rintro c ⟨⟩; decide)
  obtain ⟨h3, h4⟩ := takeWhile_all (r := []) hd (by simp)
  rw [List.append_nil] at h3 h4
  unfold readPos
  simp only [h1, h2, h3, h4]
  rw [if_neg (fun h => h0 h.2), Nat.ofDigitChars_ten_toDigits, fracDigits_eq]

private theorem readPos_digits (n : ℕ) : readPos (Nat.toDigits 10 n) = some (n : ℚ) := by
  obtain ⟨h1, h2⟩ := takeWhile_all (r := []) (digits_digit n) (by simp)
  rw [List.append_nil] at h1 h2
  unfold readPos
  simp only [h1, h2]
  rw [if_neg (fun h => Nat.toDigits_ne_nil h.1), Nat.ofDigitChars_ten_toDigits]
  simp [fracDigits]

private theorem readNum_pos {s : List Char} (h : ∀ c ∈ s.head?, c ≠ '-') : readNum s = readPos s := by
  cases s with
  | nil => rfl
  | cons c s =>
    have := h c rfl
    unfold readNum
    split
    · rename_i e; cases e; exact absurd rfl this
    · rfl

/-- **C97 (floats).** A swept float with at most seventeen decimals, zero or at least 0.0001, is read back. -/
theorem readNum_float {q : ℚ} (h : ∃ m : ℤ, q * 10 ^ 17 = m) (hq : q = 0 ∨ 1 / 10000 ≤ q) :
    readNum (floatRepr q) = some q := by
  have h0 : 0 ≤ q := by rcases hq with rfl | hq <;> linarith
  have hs : ¬ (q ≠ 0 ∧ |q| < 1 / 10000) := by
    rintro ⟨h1, h2⟩
    rw [abs_of_nonneg h0] at h2
    rcases hq with hq | hq
    · exact h1 hq
    · linarith
  obtain ⟨n, ds, hd, hr⟩ := floatRepr_value h
  rw [if_neg hs] at hr
  obtain ⟨h1, h2, h3⟩ := hr
  rw [if_neg (not_lt.2 h0), List.nil_append] at h1
  rw [h1, readNum_pos, readPos_point n hd h2, h3, abs_of_nonneg h0]
  intro c hc
  have : c ∈ Nat.toDigits 10 n := by
    rw [List.head?_append] at hc
    rcases hx : (Nat.toDigits 10 n).head? with _ | x
    · exact absurd (List.head?_eq_none_iff.1 hx) Nat.toDigits_ne_nil
    · rw [hx] at hc
      obtain rfl : x = c := Option.some.inj hc
      exact List.mem_of_mem_head? hx
  rintro rfl
  exact absurd (digits_digit n _ this) (by decide)

/-- **C97 (integers).** A swept integer is read back. -/
theorem readNum_int (z : ℤ) : readNum (intRepr z) = some (z : ℚ) := by
  unfold intRepr
  by_cases hz : z < 0
  · rw [if_pos hz]
    show (readPos (Nat.toDigits 10 z.natAbs)).map _ = _
    rw [readPos_digits, Option.map_some, Option.some.injEq]
    obtain ⟨n, rfl⟩ : ∃ n : ℕ, z = -n := ⟨z.natAbs, by omega⟩
    rw [Int.natAbs_neg, Int.natAbs_natCast]
    push_cast
    rfl
  · rw [if_neg hz, List.nil_append, readNum_pos, readPos_digits, Option.some.injEq]
    · obtain ⟨n, rfl⟩ : ∃ n : ℕ, z = n := ⟨z.natAbs, by omega⟩
      rw [Int.natAbs_natCast]
      push_cast
      rfl
    · rintro c hc rfl
      exact absurd (digits_digit _ _ (List.mem_of_mem_head? hc)) (by decide)

/-! ### The text of the key -/

/-- **C97 (the text of a tick).** If the key is not found earlier in the name of the folder (for instance inside another
key or value), the text is that of its value. -/
theorem tickText_eq {key pre v r : List Char} (hf : findWord key (pre ++ (key ++ '=' :: (v ++ r))) = some pre.length)
    (hc : ',' ∉ v) (hp : '(' ∉ v) (hr : ∀ c ∈ r.head?, c = ',') :
    tickText key (pre ++ (key ++ '=' :: (v ++ r))) = v := by
  unfold tickText
  rw [hf]
  have h1 : (pre ++ (key ++ '=' :: (v ++ r))).drop (1 + pre.length + key.length) = v ++ r := by
    have : pre ++ (key ++ '=' :: (v ++ r)) = (pre ++ key ++ ['=']) ++ (v ++ r) := by simp
    rw [this, List.drop_left' (by simp; omega)]
  have h2 : (v ++ r).takeWhile (· != ',') = v :=
    (takeWhile_all (fun c h => by simpa using fun e : c = ',' => hc (e ▸ h)) (fun c h => by simp [hr c h])).1
  simp only [h1, h2]
  rw [List.idxOf?_eq_none_iff.2 hp]

/-- **C97 (a fraction is cut off).** The bars of a float stand at its integer part, so that all values with the same
integer part share a tick. -/
theorem tick_float {key pre r : List Char} {q : ℚ} (h : ∃ m : ℤ, q * 10 ^ 17 = m) (hq : q = 0 ∨ 1 / 10000 ≤ q)
    (hf : findWord key (pre ++ (key ++ '=' :: (floatRepr q ++ r))) = some pre.length) (hr : ∀ c ∈ r.head?, c = ',') :
    tickValue key (pre ++ (key ++ '=' :: (floatRepr q ++ r))) = .num q.floor := by
  have h0 : 0 ≤ q := by rcases hq with rfl | hq <;> linarith
  have hs : ¬ (q ≠ 0 ∧ |q| < 1 / 10000) := by
    rintro ⟨h1, h2⟩
    rw [abs_of_nonneg h0] at h2
    rcases hq with hq | hq
    · exact h1 hq
    · linarith
  have hch : ∀ c ∈ floatRepr q, c.isDigit = true ∨ c = '.' := by
    obtain ⟨n, ds, hd, hr⟩ := floatRepr_value h
    rw [if_neg hs, if_neg (not_lt.2 h0), List.nil_append] at hr
    rw [hr.1]
    intro c hc
    rcases List.mem_append.1 hc with hc | hc
    · exact .inl (digits_digit n c hc)
    · rcases List.mem_cons.1 hc with hc | hc
      · exact .inr hc
      · exact .inl (hd c hc)
  have ht := tickText_eq hf (fun hc => by rcases hch _ hc with h | h <;> exact absurd h (by decide))
    (fun hc => by rcases hch _ hc with h | h <;> exact absurd h (by decide)) hr
  unfold tickValue
  rw [ht, readNum_float h hq]
  simp only [if_pos h0]

/-- **C97 (integers stand at their value).** -/
theorem tick_int {key pre r : List Char} {z : ℤ}
    (hf : findWord key (pre ++ (key ++ '=' :: (intRepr z ++ r))) = some pre.length) (hr : ∀ c ∈ r.head?, c = ',') :
    tickValue key (pre ++ (key ++ '=' :: (intRepr z ++ r))) = .num z := by
  have hch : ∀ c ∈ intRepr z, c.isDigit = true ∨ c = '-' := by
    intro c hc
    unfold intRepr at hc
    rcases List.mem_append.1 hc with hc | hc
    · split_ifs at hc
      · exact .inr (by simpa using hc)
      · simp at hc
    · exact .inl (digits_digit _ c hc)
  have ht := tickText_eq hf (fun hc => by rcases hch _ hc with h | h <;> exact absurd h (by decide))
    (fun hc => by rcases hch _ hc with h | h <;> exact absurd h (by decide)) hr
  unfold tickValue
  rw [ht, readNum_int]
  dsimp only
  split_ifs with h0
  · rw [Rat.floor_intCast]
  · rw [show (-(z : ℚ)) = ((-z : ℤ) : ℚ) by push_cast; rfl, Rat.floor_intCast, neg_neg]

/-! ### The shipped sweeps -/

private theorem findWord_skip {c : Char} {key : List Char} : ∀ (a : List Char), c ∉ a → ∀ s,
    findWord (c :: key) (a ++ s) = (findWord (c :: key) s).map (· + a.length)
  | [], _, s => by simp
  | x :: a, h, s => by
    rw [List.cons_append, findWord, if_neg, findWord_skip a (fun m => h (List.mem_cons_of_mem _ m)) s]
    · cases findWord (c :: key) s <;> simp [Nat.add_assoc]
    · intro hp
      obtain ⟨t, ht⟩ := List.isPrefixOf_iff_prefix.1 hp
      have : c = x := by simpa using congrArg List.head? ht
      exact h (this ▸ List.mem_cons_self)

/-- The number of the work unit does not change the tick. -/
private theorem tick_unit {c : Char} {key : List Char} (hd : c.isDigit = false) (hu : c ≠ '_') (w w' : ℕ)
    {kw : List (List Char × SweepVal)} {f : List Char} (hf : jobFolder w kw = some f)
    (hfd : (findWord (c :: key) f).isSome) :
    ∃ f', jobFolder w' kw = some f' ∧ tickValue (c :: key) f' = tickValue (c :: key) f := by
  unfold jobFolder at hf ⊢
  obtain ⟨as, has, rfl⟩ := Option.map_eq_some_iff.1 hf
  refine ⟨_, by rw [has]; rfl, ?_⟩
  unfold folderName at hfd ⊢
  dsimp only at hfd ⊢
  generalize ((",".toList).intercalate _).map _ = body at hfd ⊢
  have hn : ∀ n : ℕ, c ∉ Nat.toDigits 10 n ++ ['_'] := by
    intro n h
    rcases List.mem_append.1 h with h | h
    · rw [digits_digit n c h] at hd; cases hd
    · exact hu (by simpa using h)
  have ht : ∀ n : ℕ, (findWord (c :: key) body).isSome →
      tickText (c :: key) (Nat.toDigits 10 n ++ '_' :: body) = tickText (c :: key) body := by
    intro n hs
    obtain ⟨i, hi⟩ := Option.isSome_iff_exists.1 hs
    have e : Nat.toDigits 10 n ++ '_' :: body = (Nat.toDigits 10 n ++ ['_']) ++ body := by simp
    unfold tickText
    rw [e, findWord_skip _ (hn n), hi]
    simp only [Option.map_some]
    have h2 : ((Nat.toDigits 10 n ++ ['_']) ++ body).drop (1 + (i + (Nat.toDigits 10 n ++ ['_']).length) + (c :: key).length)
        = body.drop (1 + i + (c :: key).length) := by
      rw [List.drop_append, List.drop_eq_nil_of_le (by omega), List.nil_append]
      congr 1
      omega
    rw [h2]
  have hs : (findWord (c :: key) body).isSome := by
    have e : Nat.toDigits 10 w ++ '_' :: body = (Nat.toDigits 10 w ++ ['_']) ++ body := by simp
    rw [e, findWord_skip _ (hn w)] at hfd
    simpa using hfd
  unfold tickValue
  rw [ht w hs, ht w' hs]

/-- Where the bars of a value should stand: integers at their value, shapes at their first dimension. -/
def Spec.sizeOf? : Val → Option ℤ
  | .int z => some z
  | .tuple (n :: _) => some n
  | _ => none

/-- Keys over which the shipped sweeps of the classical models are plotted. -/
def Spec.sizeKeys : List Key := [.chain_length, .num_categories, .shape]

def tickCheck (kw : List Arg) : Bool :=
  kw.all fun a => !decide (a.1.2 ∈ sizeKeys) ||
    match jobFolder 1 (kw.map argSweep) with
    | none => false
    | some f => (findWord a.1.2.text f).isSome && match sizeOf? a.2 with
      | none => false
      | some z => decide (tickValue a.1.2.text f = .num z)

theorem tickCheck_all : ((shippedSweeps.take 23).all fun rc => (rc.jobs.getD []).all tickCheck) = true := by decide +kernel

/-- **C97 (the shipped sweeps of the classical models).** The bars of every job stand at its chain length, its number of
categories or the first dimension of its shape, whichever is plotted, whatever the number of the work unit. -/
theorem shipped_ticks {rc : RunConfig} (hrc : rc ∈ shippedSweeps.take 23) {js : List (List Arg)} (hj : rc.jobs = some js)
    {kw : List Arg} (hkw : kw ∈ js) {a : Arg} (ha : a ∈ kw) (hk : a.1.2 ∈ sizeKeys) (w : ℕ) :
    ∃ f z, jobFolder w (kw.map argSweep) = some f ∧ sizeOf? a.2 = some z ∧ tickValue a.1.2.text f = .num z := by
  have h := List.all_eq_true.1 tickCheck_all rc hrc
  rw [hj, Option.getD_some] at h
  have h2 := List.all_eq_true.1 (List.all_eq_true.1 h kw hkw) a ha
  rw [Bool.or_eq_true] at h2
  replace h2 := h2.resolve_left (by simpa using hk)
  split at h2
  · cases h2
  · rename_i f hf
    rw [Bool.and_eq_true] at h2
    obtain ⟨hfd, h2⟩ := h2
    split at h2
    · cases h2
    · rename_i z hz
      have ht := of_decide_eq_true h2
      obtain ⟨c, t, hc, hcd, hcu⟩ : ∃ c t, a.1.2.text = c :: t ∧ c.isDigit = false ∧ c ≠ '_' := by
        simp only [sizeKeys, List.mem_cons, List.not_mem_nil, or_false] at hk
        rcases hk with e | e | e <;> rw [e] <;> exact ⟨_, _, rfl, by decide, by decide⟩
      rw [hc] at hfd ht ⊢
      obtain ⟨f', hf', e⟩ := tick_unit hcd hcu 1 w hf hfd
      exact ⟨f', z, hf', hz, by rw [e, ht]⟩

/-- **C97 (refuted for fractions).** In the shipped sweeps over the temperature of the Ising model all sixteen values have
the tick zero; of the four penalties of the Erdős–Rényi sweep three share a tick; and the scales 0.5 and 1.5 of the
Bernoulli sweep are drawn at zero and one. -/
theorem ticks_fractions :
    (((swIsingLamdasweepSmall.jobs.getD []).all fun kw =>
        (jobFolder 1 (kw.map argSweep)).map (tickValue Key.lambdaa.text) == some (.num 0)) = true ∧
      ((swIsingLamdasweepSmall.jobs.getD []).filterMap fun kw => kw.lookup (.model, .lambdaa)).dedup.length = 16) ∧
    (((swMisEr800015Penalty.jobs.getD []).filterMap fun kw => (kw.lookup (.model, .penalty)).map fun v =>
        (v, (jobFolder 1 (kw.map argSweep)).map (tickValue Key.penalty.text))).dedup =
      [(.float (1001 / 1000), some (.num 1)), (.float (101 / 100), some (.num 1)), (.float (11 / 10), some (.num 1)),
        (.int 2, some (.num 2))]) ∧
    (((swBernoulliModelConfigSweep.jobs.getD []).filterMap fun kw => (kw.lookup (.model, .init_sigma)).map fun v =>
        (v, (jobFolder 1 (kw.map argSweep)).map (tickValue Key.init_sigma.text))).dedup =
      [(.float (1 / 2), some (.num 0)), (.float (3 / 2), some (.num 1))]) := by
  refine ⟨⟨?_, ?_⟩, ?_, ?_⟩
  all_goals decide +kernel

/-- A folder of such a sweep. -/
example : tickValue "penalty".toList "1_name='gwg',penalty=1.001".toList = .num 1 ∧
    tickValue "chain_length".toList "3_chain_length=50000,name='gwg'".toList = .num 50000 := by decide +kernel

/-- A sweep among the classical models with jobs and a plotted key. -/
example : ∃ rc ∈ shippedSweeps.take 23, ∃ js, rc.jobs = some js ∧ ∃ kw ∈ js, ∃ a ∈ kw, a.1.2 ∈ sizeKeys := by
  have h : (shippedSweeps.take 23).any (fun rc => (rc.jobs.getD []).any fun kw => kw.any fun a =>
      decide (a.1.2 ∈ sizeKeys)) = true := by decide +kernel
  obtain ⟨rc, hrc, h⟩ := List.any_eq_true.1 h
  obtain ⟨kw, hkw, h⟩ := List.any_eq_true.1 h
  obtain ⟨a, ha, h⟩ := List.any_eq_true.1 h
  cases hj : rc.jobs with
  | none => rw [hj] at hkw; simp at hkw
  | some js => exact ⟨rc, hrc, js, hj, kw, by simpa [hj] using hkw, a, ha, of_decide_eq_true h⟩

end Discs
