import Verif.Model.TextInfill
import Verif.Spec.Text
import Mathlib.Data.List.Nodup

/-! # Helper lemmas for the infilling data set -/

namespace Discs

variable {L W Tok : Type*}

theorem withoutFirst_zero {α : Type*} (p : α → Bool) (l : List α) : Spec.withoutFirst p 0 l = l := by
  cases l <;> rfl

theorem perm_withoutFirst {α : Type*} (p : α → Bool) (l : List α) :
    ∀ n, ((l.filter p).take n ++ Spec.withoutFirst p n l).Perm l := by
  induction l with
  | nil => intro n; simp [Spec.withoutFirst]
  | cons a l ih =>
    intro n
    cases n with
    | zero => simp [Spec.withoutFirst]
    | succ n =>
      by_cases h : p a
      · simpa [Spec.withoutFirst, h] using ih n
      · simp only [Spec.withoutFirst, List.filter_cons, h]
        exact List.perm_middle.trans ((ih (n + 1)).cons a)

theorem maskWords_length (mask : W) (pos : List ℕ) :
    ∀ ws : List W, (maskWords mask ws pos).length = ws.length := by
  induction pos with
  | nil => intro ws; rfl
  | cons p pos ih =>
    intro ws
    change (maskWords mask (ws.set p mask) pos).length = _
    rw [ih, List.length_set]

theorem maskWords_getElem? (mask : W) (pos : List ℕ) :
    ∀ (ws : List W) (i : ℕ), (maskWords mask ws pos)[i]?
      = if i ∈ pos then (if i < ws.length then some mask else none) else ws[i]? := by
  induction pos with
  | nil => intro ws i; simp [maskWords]
  | cons p pos ih =>
    intro ws i
    change (maskWords mask (ws.set p mask) pos)[i]? = _
    rw [ih, List.length_set]
    by_cases hi : i ∈ pos
    · simp [hi]
    · by_cases hp : i = p
      · subst hp
        simp [hi, List.getElem?_set]
      · simp [hi, hp, Ne.symm hp]

/-- Masking at distinct positions inside the list makes as many words equal to the mask as there are
positions, when there was none before. -/
theorem maskWords_count [DecidableEq W] (mask : W) (pos : List ℕ) :
    ∀ ws : List W, pos.Nodup → (∀ p ∈ pos, ∃ w, ws[p]? = some w ∧ w ≠ mask) →
      (maskWords mask ws pos).count mask = ws.count mask + pos.length := by
  induction pos with
  | nil => intro ws _ _; simp [maskWords]
  | cons p pos ih =>
    intro ws hnd h
    change (maskWords mask (ws.set p mask) pos).count mask = _
    obtain ⟨hp, hnd'⟩ := List.nodup_cons.1 hnd
    rw [ih _ hnd']
    · obtain ⟨w, hw, hne⟩ := h p (List.mem_cons_self)
      have hlt : p < ws.length := by
        by_contra hc
        rw [List.getElem?_eq_none (by omega)] at hw
        cases hw
      have hwe : ws[p] = w := by
        rw [List.getElem?_eq_getElem hlt] at hw
        exact Option.some.inj hw
      rw [List.count_set hlt]
      have : ¬ (ws[p] == mask) = true := by rw [hwe]; simpa using hne
      simp [this]
      omega
    · intro q hq
      obtain ⟨w, hw, hne⟩ := h q (List.mem_cons_of_mem _ hq)
      refine ⟨w, ?_, hne⟩
      have : p ≠ q := fun e => hp (e ▸ hq)
      rw [List.getElem?_set_ne this]
      exact hw

/-- `infillPositions` with a general starting index. -/
def infillFrom [DecidableEq Tok] (m : Tok) : ℕ → List Tok → List ℕ
  | _, [] => []
  | n, t :: ts => if t = m then n :: infillFrom m (n + 1) ts else infillFrom m (n + 1) ts

theorem infillPositions_eq [DecidableEq Tok] (m : Tok) (ts : List Tok) :
    infillPositions m ts = infillFrom m 1 ts := by
  have h : ∀ (ts : List Tok) n, ((ts.zipIdx n).filter fun ti => decide (ti.1 = m)).map (fun ti => ti.2 + 1)
      = infillFrom m (n + 1) ts := by
    intro ts
    induction ts with
    | nil => intro n; rfl
    | cons t ts ih =>
      intro n
      by_cases ht : t = m
      · simp [infillFrom, List.zipIdx_cons, ht, ih]
      · simp [infillFrom, List.zipIdx_cons, ht, ih]
  exact h ts 0

theorem infillFrom_length [DecidableEq Tok] (m : Tok) (ts : List Tok) :
    ∀ n, (infillFrom m n ts).length = ts.count m := by
  induction ts with
  | nil => intro n; rfl
  | cons t ts ih =>
    intro n
    by_cases ht : t = m
    · simp [infillFrom, ht, ih]
    · simp [infillFrom, ht, ih]

theorem mem_infillFrom [DecidableEq Tok] (m : Tok) (ts : List Tok) :
    ∀ n q, q ∈ infillFrom m n ts ↔ n ≤ q ∧ ts[q - n]? = some m := by
  induction ts with
  | nil => intro n q; simp [infillFrom]
  | cons t ts ih =>
    intro n q
    have key : (n + 1 ≤ q ∧ ts[q - (n + 1)]? = some m) ↔ (n < q ∧ (t :: ts)[q - n]? = some m) := by
      constructor
      · rintro ⟨h1, h2⟩
        refine ⟨h1, ?_⟩
        have : q - n = (q - (n + 1)) + 1 := by omega
        rw [this, List.getElem?_cons_succ]; exact h2
      · rintro ⟨h1, h2⟩
        refine ⟨h1, ?_⟩
        have : q - n = (q - (n + 1)) + 1 := by omega
        rw [this, List.getElem?_cons_succ] at h2; exact h2
    by_cases ht : t = m
    · subst ht
      simp only [infillFrom, if_true, List.mem_cons, ih]
      rw [key]
      constructor
      · rintro (h | h)
        · subst h; simp
        · exact ⟨h.1.le, h.2⟩
      · rintro ⟨h1, h2⟩
        rcases h1.eq_or_lt with h | h
        · exact Or.inl h.symm
        · exact Or.inr ⟨h, h2⟩
    · simp only [infillFrom, ht, if_false, ih]
      rw [key]
      constructor
      · rintro h; exact ⟨h.1.le, h.2⟩
      · rintro ⟨h1, h2⟩
        rcases h1.eq_or_lt with h | h
        · subst h
          simp at h2
          exact absurd h2 ht
        · exact ⟨h, h2⟩

theorem infillFrom_sorted [DecidableEq Tok] (m : Tok) (ts : List Tok) :
    ∀ n, (infillFrom m n ts).Pairwise (· < ·) := by
  induction ts with
  | nil => intro n; exact List.Pairwise.nil
  | cons t ts ih =>
    intro n
    by_cases ht : t = m
    · simp only [infillFrom, ht, if_true]
      refine List.pairwise_cons.2 ⟨fun q hq => ?_, ih _⟩
      exact ((mem_infillFrom m ts _ _).1 hq).1
    · simp only [infillFrom, ht, if_false]
      exact ih _

/-- Writing `x` at the mask positions fills the masks from left to right. -/
theorem setAll_infillFrom [DecidableEq Tok] (m : Tok) (ts : List Tok) :
    ∀ (pre post x : List Tok),
      ((infillFrom m pre.length ts).zip x).foldl (fun l pv => l.set pv.1 pv.2) (pre ++ ts ++ post)
        = pre ++ Spec.fillIn m ts x ++ post := by
  induction ts with
  | nil => intro pre post x; simp [infillFrom, Spec.fillIn]
  | cons t ts ih =>
    intro pre post x
    have hstep : ∀ (a : Tok) (y : List Tok),
        ((infillFrom m (pre.length + 1) ts).zip y).foldl (fun l pv => l.set pv.1 pv.2)
            (pre ++ (a :: ts) ++ post)
          = pre ++ (a :: Spec.fillIn m ts y) ++ post := by
      intro a y
      have := ih (pre ++ [a]) post y
      simpa using this
    cases x with
    | nil => simp [Spec.fillIn]
    | cons v vs =>
      by_cases ht : t = m
      · simp only [infillFrom, ht, if_true, Spec.fillIn, List.zip_cons_cons, List.foldl_cons]
        have hset : (pre ++ (m :: ts) ++ post).set pre.length v = pre ++ (v :: ts) ++ post := by
          simp
        rw [hset, hstep]
      · simp only [infillFrom, ht, if_false, Spec.fillIn]
        exact hstep t (v :: vs)

end Discs
