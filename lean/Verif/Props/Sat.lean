import Verif.Props.Loader
import Mathlib.Algebra.BigOperators.Fin

/-!
# C45: SAT instances as independent-set graphs
-/

namespace Discs

open Spec

/-- Literal written at node `u`: position `u mod 3` of clause `u / 3`. -/
def litAt (cs : List (List ℤ)) (u : ℕ) : Option ℤ := (cs[u / 3]?).bind fun c => c[u % 3]?

theorem litAt_cons_shift (c : List ℤ) (cs : List (List ℤ)) {u : ℕ} (h : 3 ≤ u) :
    litAt (c :: cs) u = litAt cs (u - 3) := by
  unfold litAt
  have h1 : u / 3 = (u - 3) / 3 + 1 := by omega
  have h2 : u % 3 = (u - 3) % 3 := by omega
  rw [h1, h2, List.getElem?_cons_succ]

theorem mem_update_append {ind : ℤ → List ℕ} {a l : ℤ} {n u : ℕ} :
    u ∈ Function.update ind a (ind a ++ [n]) l ↔ u ∈ ind l ∨ (l = a ∧ u = n) := by
  by_cases h : l = a
  · subst h; simp
  · simp [h]

/-- What the clause loop builds: `ind` lists the nodes of each literal and the edges are the
triangles. -/
theorem cnfLoop_spec (nv : ℕ) (cs : List (List ℤ))
    (hc : ∀ c ∈ cs, c.length = 3 ∧ ∀ l ∈ c, l ≠ 0 ∧ l.natAbs ≤ nv) :
    ∀ (i : ℕ) (ind : ℤ → List ℕ) (edges : List (ℕ × ℕ)), ∃ ind' edges',
      cnfLoop nv i ind edges cs = some (ind', edges') ∧
      (∀ l u, u ∈ ind' l ↔ u ∈ ind l ∨ (3 * i ≤ u ∧ litAt cs (u - 3 * i) = some l)) ∧
      (∀ e, e ∈ edges' ↔ e ∈ edges ∨ ∃ j < cs.length,
        e = (3 * (i + j), 3 * (i + j) + 1) ∨ e = (3 * (i + j), 3 * (i + j) + 2) ∨
          e = (3 * (i + j) + 1, 3 * (i + j) + 2)) := by
  induction cs with
  | nil =>
    intro i ind edges
    exact ⟨ind, edges, rfl, by simp [litAt], by simp⟩
  | cons c cs ih =>
    intro i ind edges
    obtain ⟨hlen, hlit⟩ := hc c List.mem_cons_self
    obtain ⟨a, b, d, rfl⟩ := List.length_eq_three.1 hlen
    have ha := hlit a (by simp)
    have hb := hlit b (by simp)
    have hd := hlit d (by simp)
    obtain ⟨ind', edges', h1, h2, h3⟩ := ih (fun c' h' => hc c' (List.mem_cons_of_mem _ h')) (i + 1)
      (Function.update (Function.update (Function.update ind a (ind a ++ [3 * i + 0])) b
        (Function.update ind a (ind a ++ [3 * i + 0]) b ++ [3 * i + 1])) d
        (Function.update (Function.update ind a (ind a ++ [3 * i + 0])) b
        (Function.update ind a (ind a ++ [3 * i + 0]) b ++ [3 * i + 1]) d ++ [3 * i + 2]))
      (edges ++ [(3 * i + 0, 3 * i + 1), (3 * i + 0, 3 * i + 2), (3 * i + 1, 3 * i + 2)])
    refine ⟨ind', edges', ?_, ?_, ?_⟩
    · rw [cnfLoop, if_pos ⟨ha, hb, hd⟩]
      exact h1
    · intro l u
      rw [h2, mem_update_append, mem_update_append, mem_update_append]
      constructor
      · rintro ((((h | ⟨rfl, rfl⟩) | ⟨rfl, rfl⟩) | ⟨rfl, rfl⟩) | ⟨h, h'⟩)
        · exact Or.inl h
        · right; simp [litAt]
        · right; exact ⟨by omega, by rw [show 3 * i + 1 - 3 * i = 1 by omega]; simp [litAt]⟩
        · right; exact ⟨by omega, by rw [show 3 * i + 2 - 3 * i = 2 by omega]; simp [litAt]⟩
        · right
          refine ⟨by omega, ?_⟩
          rw [litAt_cons_shift _ _ (by omega), show u - 3 * i - 3 = u - 3 * (i + 1) by omega]
          exact h'
      · rintro (h | ⟨h, h'⟩)
        · exact Or.inl (Or.inl (Or.inl (Or.inl h)))
        · by_cases hu : 3 * (i + 1) ≤ u
          · right
            refine ⟨hu, ?_⟩
            rw [litAt_cons_shift _ _ (by omega), show u - 3 * i - 3 = u - 3 * (i + 1) by omega] at h'
            exact h'
          · left
            obtain ⟨r, rfl⟩ := Nat.exists_eq_add_of_le h
            rw [Nat.add_sub_cancel_left] at h'
            have hr : r < 3 := by omega
            interval_cases r <;> simp [litAt] at h'
            · exact Or.inl (Or.inl (Or.inr ⟨h'.symm, rfl⟩))
            · exact Or.inl (Or.inr ⟨h'.symm, rfl⟩)
            · exact Or.inr ⟨h'.symm, rfl⟩
    · intro e
      rw [h3, List.mem_append]
      constructor
      · rintro ((h | h) | ⟨j, hj, h⟩)
        · exact Or.inl h
        · right
          refine ⟨0, by simp, ?_⟩
          simpa using h
        · right
          refine ⟨j + 1, by simpa using hj, ?_⟩
          rw [show i + (j + 1) = i + 1 + j by ring]; exact h
      · rintro (h | ⟨j, hj, h⟩)
        · exact Or.inl (Or.inl h)
        · rcases j with - | j
          · left; right; simpa using h
          · right
            refine ⟨j, by simpa using hj, ?_⟩
            rw [show i + (j + 1) = i + 1 + j by ring] at h; exact h

/-- The clauses that are not empty. -/
def nonEmpty (clauses : List (List ℤ)) : List (List ℤ) := clauses.filter fun c => !c.isEmpty

theorem numSat_nonEmpty (σ : ℕ → Bool) (clauses : List (List ℤ)) :
    numSat σ (nonEmpty clauses) = numSat σ clauses := by
  unfold numSat nonEmpty
  rw [List.countP_filter]
  refine List.countP_congr fun c _ => ?_
  cases c <;> simp [clauseSat]

theorem countP_eq_card {α : Type*} (p : α → Bool) (l : List α) :
    l.countP p = ((Finset.range l.length).filter fun j => (l[j]?).any p = true).card := by
  have h : ∀ i : Fin l.length, (if (l[i.val]?).any p = true then 1 else 0) =
      if p l[i.val] = true then 1 else 0 := by
    intro i
    rw [List.getElem?_eq_getElem i.isLt]; rfl
  rw [Finset.card_filter, Finset.sum_range]
  simp only [h]
  rw [Fin.sum_univ_fun_getElem l fun a => if p a = true then 1 else 0]
  clear h
  induction l with
  | nil => simp
  | cons a l ih =>
    rw [List.countP_cons, ih, List.map_cons, List.sum_cons, add_comm]

theorem litAt_lt {cs : List (List ℤ)} {u : ℕ} {l : ℤ} (h : litAt cs u = some l) :
    u < 3 * cs.length := by
  unfold litAt at h
  cases h1 : cs[u / 3]? with
  | none => rw [h1] at h; simp at h
  | some c =>
    obtain ⟨h2, -⟩ := List.getElem?_eq_some_iff.1 h1
    omega

/-- The graph built from a 3-CNF, by membership. -/
theorem cnf2graph_edges {nv : ℕ} {clauses : List (List ℤ)} (h : Is3CNF nv clauses) :
    ∃ edges, cnf2graph nv clauses = some edges ∧ ∀ e, e ∈ edges ↔
      (∃ j < (nonEmpty clauses).length, e = (3 * j, 3 * j + 1) ∨ e = (3 * j, 3 * j + 2) ∨
        e = (3 * j + 1, 3 * j + 2)) ∨
      ∃ l : ℤ, 0 < l ∧ litAt (nonEmpty clauses) e.1 = some l ∧
        litAt (nonEmpty clauses) e.2 = some (-l) := by
  have hc : ∀ c ∈ nonEmpty clauses, c.length = 3 ∧ ∀ l ∈ c, l ≠ 0 ∧ l.natAbs ≤ nv := by
    intro c hc
    obtain ⟨h1, h2⟩ := List.mem_filter.1 hc
    rcases h c h1 with rfl | h3
    · simp at h2
    · exact h3
  obtain ⟨ind', edges', h1, h2, h3⟩ := cnfLoop_spec nv _ hc 0 (fun _ => []) []
  refine ⟨_, by
    unfold cnf2graph
    change (cnfLoop nv 0 (fun _ => []) [] (nonEmpty clauses)).bind _ = _
    rw [h1]; rfl, ?_⟩
  intro e
  rw [List.mem_append, h3]
  simp only [List.not_mem_nil, false_or, Nat.zero_add]
  refine or_congr_right ?_
  simp only [List.mem_flatMap, List.mem_range, List.mem_map]
  have hnv : ∀ u l, litAt (nonEmpty clauses) u = some l → l.natAbs ≤ nv := by
    intro u l hl
    unfold litAt at hl
    cases h1 : (nonEmpty clauses)[u / 3]? with
    | none => rw [h1] at hl; simp at hl
    | some c =>
      rw [h1, Option.bind_some] at hl
      exact ((hc c (List.mem_of_getElem? h1)).2 l (List.mem_of_getElem? hl)).2
  constructor
  · rintro ⟨i, hi, u, hu, v, hv, rfl⟩
    rw [h2] at hu hv
    simp only [List.not_mem_nil, false_or, Nat.mul_zero, Nat.zero_le, true_and, Nat.sub_zero] at hu hv
    exact ⟨(i : ℤ) + 1, by omega, hu, hv⟩
  · rintro ⟨l, hl, hu, hv⟩
    have := hnv _ _ hu
    refine ⟨l.natAbs - 1, by omega, e.1, ?_, e.2, ?_, rfl⟩
    · rw [h2]
      simp only [List.not_mem_nil, false_or, Nat.mul_zero, Nat.zero_le, true_and, Nat.sub_zero]
      rw [hu]; congr 1; omega
    · rw [h2]
      simp only [List.not_mem_nil, false_or, Nat.mul_zero, Nat.zero_le, true_and, Nat.sub_zero]
      rw [hv]; congr 1; omega

/-- **C45.** For every 3-CNF formula the encoding succeeds; the graph has the nodes
`0 .. 3·(#non-empty clauses) - 1` and no self-loop; and it has an independent set of size `k` if and
only if some assignment satisfies at least `k` clauses. -/
theorem cnf2graph_faithful {nv : ℕ} {clauses : List (List ℤ)} (h : Is3CNF nv clauses) :
    ∃ edges, cnf2graph nv clauses = some edges ∧
      (∀ v, IsNode edges v ↔ v < 3 * (clauses.countP fun c => !c.isEmpty)) ∧
      (∀ e ∈ edges, e.1 ≠ e.2) ∧
      ∀ k, (∃ S : Finset ℕ, IsIndepNodes edges S ∧ S.card = k) ↔ ∃ σ, k ≤ numSat σ clauses := by
  obtain ⟨edges, h1, h2⟩ := cnf2graph_edges h
  have hc : ∀ c ∈ nonEmpty clauses, c.length = 3 ∧ ∀ l ∈ c, l ≠ 0 ∧ l.natAbs ≤ nv := by
    intro c hc
    obtain ⟨h1, h2⟩ := List.mem_filter.1 hc
    rcases h c h1 with rfl | h3
    · simp at h2
    · exact h3
  have hlen : (clauses.countP fun c => !c.isEmpty) = (nonEmpty clauses).length :=
    List.countP_eq_length_filter
  have hnode : ∀ v, IsNode edges v ↔ v < 3 * (nonEmpty clauses).length := by
    intro v
    constructor
    · rintro ⟨e, he, hv⟩
      rcases (h2 e).1 he with ⟨j, hj, rfl | rfl | rfl⟩ | ⟨l, -, hl1, hl2⟩
      · rcases hv with rfl | rfl <;> simp only <;> omega
      · rcases hv with rfl | rfl <;> simp only <;> omega
      · rcases hv with rfl | rfl <;> simp only <;> omega
      · rcases hv with rfl | rfl
        · exact litAt_lt hl1
        · exact litAt_lt hl2
    · intro hv
      have hj : v / 3 < (nonEmpty clauses).length := by omega
      have hr : v % 3 = 0 ∨ v % 3 = 1 ∨ v % 3 = 2 := by omega
      rcases hr with hr | hr | hr
      · exact ⟨(3 * (v / 3), 3 * (v / 3) + 1), (h2 _).2 (Or.inl ⟨v / 3, hj, Or.inl rfl⟩),
          Or.inl (by simp only; omega)⟩
      · exact ⟨(3 * (v / 3), 3 * (v / 3) + 1), (h2 _).2 (Or.inl ⟨v / 3, hj, Or.inl rfl⟩),
          Or.inr (by simp only; omega)⟩
      · exact ⟨(3 * (v / 3), 3 * (v / 3) + 2), (h2 _).2 (Or.inl ⟨v / 3, hj, Or.inr (Or.inl rfl)⟩),
          Or.inr (by simp only; omega)⟩
  have hlit : ∀ u, u < 3 * (nonEmpty clauses).length → ∃ l, litAt (nonEmpty clauses) u = some l ∧ l ≠ 0 ∧
      ∃ hj : u / 3 < (nonEmpty clauses).length, l ∈ (nonEmpty clauses)[u / 3] := by
    intro u hu
    have hj : u / 3 < (nonEmpty clauses).length := by omega
    obtain ⟨hl3, hl⟩ := hc _ (List.getElem_mem hj)
    have hr : u % 3 < ((nonEmpty clauses)[u / 3]).length := by rw [hl3]; omega
    refine ⟨((nonEmpty clauses)[u / 3])[u % 3], ?_, (hl _ (List.getElem_mem hr)).1, hj,
      List.getElem_mem hr⟩
    unfold litAt
    rw [List.getElem?_eq_getElem hj, Option.bind_some, List.getElem?_eq_getElem hr]
  refine ⟨edges, h1, by rw [hlen]; exact hnode, ?_, ?_⟩
  · intro e he heq
    rcases (h2 e).1 he with ⟨j, hj, rfl | rfl | rfl⟩ | ⟨l, hl, hl1, hl2⟩
    · simp only at heq; omega
    · simp only at heq; omega
    · simp only at heq; omega
    · rw [heq, hl2] at hl1
      have := Option.some.inj hl1
      omega
  · intro k
    constructor
    · rintro ⟨S, ⟨hS1, hS2⟩, hk⟩
      have hSlt : ∀ v ∈ S, v < 3 * (nonEmpty clauses).length := fun v hv => (hnode v).1 (hS1 v hv)
      -- no two chosen nodes in one clause
      have hinj : ∀ u ∈ S, ∀ v ∈ S, u / 3 = v / 3 → u = v := by
        intro u hu v hv huv
        by_contra hne
        have key : ∀ a b, a ∈ S → b ∈ S → a / 3 = b / 3 → a < b → False := by
          intro a b ha hb hab hlt
          have haj : a / 3 < (nonEmpty clauses).length := by have := hSlt a ha; omega
          have hd : (a = 3 * (a / 3) ∧ b = 3 * (a / 3) + 1) ∨ (a = 3 * (a / 3) ∧ b = 3 * (a / 3) + 2) ∨
              (a = 3 * (a / 3) + 1 ∧ b = 3 * (a / 3) + 2) := by omega
          refine hS2 (a, b) ((h2 (a, b)).2 (Or.inl ⟨a / 3, haj, ?_⟩)) ⟨ha, hb⟩
          rcases hd with ⟨e1, e2⟩ | ⟨e1, e2⟩ | ⟨e1, e2⟩
          · exact Or.inl (Prod.ext e1 e2)
          · exact Or.inr (Or.inl (Prod.ext e1 e2))
          · exact Or.inr (Or.inr (Prod.ext e1 e2))
        rcases Nat.lt_or_gt_of_ne hne with hlt | hlt
        · exact key u v hu hv huv hlt
        · exact key v u hv hu huv.symm hlt
      classical
      let σ : ℕ → Bool := fun n => decide (∃ u ∈ S, litAt (nonEmpty clauses) u = some (n : ℤ))
      refine ⟨σ, ?_⟩
      have htrue : ∀ u ∈ S, ∀ l, litAt (nonEmpty clauses) u = some l → l ≠ 0 → litTrue σ l = true := by
        intro u hu l hl hl0
        unfold litTrue
        split_ifs with hpos
        · refine decide_eq_true ⟨u, hu, ?_⟩
          rw [hl]; congr 1; omega
        · rw [Bool.not_eq_true', decide_eq_false_iff_not]
          rintro ⟨v, hv, hlv⟩
          refine hS2 (v, u) ((h2 (v, u)).2 (Or.inr ⟨(l.natAbs : ℤ), by omega, hlv, ?_⟩)) ⟨hv, hu⟩
          dsimp only
          rw [hl]; congr 1; omega
      rw [← numSat_nonEmpty, numSat, countP_eq_card, ← hk]
      refine Finset.card_le_card_of_injOn (fun u => u / 3) ?_ fun u hu v hv huv => hinj u hu v hv huv
      intro u hu
      obtain ⟨l, hl, hl0, hj, hmem⟩ := hlit u (hSlt u hu)
      simp only [Finset.coe_filter, Finset.mem_range, Set.mem_ofPred_eq]
      refine ⟨hj, ?_⟩
      rw [List.getElem?_eq_getElem hj, Option.any_some]
      exact List.any_eq_true.2 ⟨l, hmem, htrue u hu l hl hl0⟩
    · rintro ⟨σ, hk⟩
      rw [← numSat_nonEmpty, numSat, countP_eq_card] at hk
      obtain ⟨F, hF, hFk⟩ := Finset.exists_subset_card_eq hk
      have hg : ∀ j, ∃ u, j ∈ F → u / 3 = j ∧ ∃ l, litAt (nonEmpty clauses) u = some l ∧
          litTrue σ l = true := by
        intro j
        by_cases hj : j ∈ F
        · have h3 := hF hj
          rw [Finset.mem_filter, Finset.mem_range] at h3
          obtain ⟨hjl, hsat⟩ := h3
          rw [List.getElem?_eq_getElem hjl, Option.any_some] at hsat
          obtain ⟨l, hl, hlt⟩ := List.any_eq_true.1 hsat
          obtain ⟨r, hr, hrl⟩ := List.getElem_of_mem hl
          have hr3 : r < 3 := by rw [(hc _ (List.getElem_mem hjl)).1] at hr; exact hr
          refine ⟨3 * j + r, fun _ => ⟨by omega, l, ?_, hlt⟩⟩
          unfold litAt
          rw [show (3 * j + r) / 3 = j by omega, show (3 * j + r) % 3 = r by omega,
            List.getElem?_eq_getElem hjl, Option.bind_some, List.getElem?_eq_getElem hr, hrl]
        · exact ⟨0, fun h => absurd h hj⟩
      choose g hg using hg
      refine ⟨F.image g, ⟨?_, ?_⟩, ?_⟩
      · intro v hv
        obtain ⟨j, hj, rfl⟩ := Finset.mem_image.1 hv
        obtain ⟨-, l, hl, -⟩ := hg j hj
        exact (hnode _).2 (litAt_lt hl)
      · rintro e he ⟨he1, he2⟩
        obtain ⟨a, ha, hae⟩ := Finset.mem_image.1 he1
        obtain ⟨b, hb, hbe⟩ := Finset.mem_image.1 he2
        obtain ⟨ha3, la, hla, hlat⟩ := hg a ha
        obtain ⟨hb3, lb, hlb, hlbt⟩ := hg b hb
        have hsame : e.1 / 3 = e.2 / 3 → e.1 = e.2 := by
          intro h3
          rw [← hae, ← hbe, ha3, hb3] at h3
          rw [← hae, ← hbe, h3]
        rcases (h2 e).1 he with ⟨j, hj, rfl | rfl | rfl⟩ | ⟨l, hl, hl1, hl2⟩
        · have := hsame (by simp only; omega); simp only at this; omega
        · have := hsame (by simp only; omega); simp only at this; omega
        · have := hsame (by simp only; omega); simp only at this; omega
        · rw [← hae, hla] at hl1
          rw [← hbe, hlb] at hl2
          obtain rfl := Option.some.inj hl1
          obtain rfl := Option.some.inj hl2
          unfold litTrue at hlat hlbt
          rw [if_pos hl] at hlat
          rw [if_neg (by omega), Int.natAbs_neg, hlat] at hlbt
          exact absurd hlbt (by simp)
      · rw [Finset.card_image_of_injOn, hFk]
        intro a ha b hb hab
        rw [← (hg a ha).1, ← (hg b hb).1, hab]

/-- **C45 (satisfiability).** The formula is satisfiable exactly when the graph has an independent
set with one node per clause. -/
theorem cnf2graph_sat {nv : ℕ} {clauses : List (List ℤ)} (h : Is3CNF nv clauses) :
    ∃ edges, cnf2graph nv clauses = some edges ∧
      ((∃ S : Finset ℕ, IsIndepNodes edges S ∧ S.card = clauses.length) ↔
        ∃ σ, ∀ c ∈ clauses, clauseSat σ c = true) := by
  obtain ⟨edges, h1, -, -, h2⟩ := cnf2graph_faithful h
  refine ⟨edges, h1, ?_⟩
  rw [h2]
  refine exists_congr fun σ => ?_
  unfold numSat
  constructor
  · intro hle
    exact List.countP_eq_length.1 (le_antisymm List.countP_le_length hle)
  · intro hall
    rw [List.countP_eq_length.2 hall]

/-- Concrete case: `(x ∨ y ∨ ¬y) ∧ (¬x ∨ ¬x ∨ ¬y)`, with a complementary and a repeated literal. -/
example : Is3CNF 2 [[1, 2, -2], [-1, -1, -2]] ∧ cnf2graph 2 [[1, 2, -2], [-1, -1, -2]] =
    some [(0, 1), (0, 2), (1, 2), (3, 4), (3, 5), (4, 5), (0, 3), (0, 4), (1, 2), (1, 5)] := by
  refine ⟨?_, by decide⟩
  unfold Is3CNF
  simp

/-- A clause with fewer than three literals makes the encoder fail. -/
theorem cnf2graph_short (nv : ℕ) (a b : ℤ) : cnf2graph nv [[a, b]] = none := rfl

end Discs
