import Mathlib.Logic.Relation
import Mathlib.Data.Finset.Card
import Mathlib.Data.List.Nodup
import Mathlib.Data.List.GetD
import Verif.Model.GenConnected
import Verif.Props.Loader

/-!
# C129: random connected graphs

`gen_connected` (`graph_loader/common.py:9-75`).
-/

namespace Discs

/-- Joined by a path in the undirected graph with these edges. -/
def Spec.Joined (edges : List (ℕ × ℕ)) : ℕ → ℕ → Prop :=
  Relation.ReflTransGen fun u v => (u, v) ∈ edges ∨ (v, u) ∈ edges

open Classical in
/-- The nodes among `0..n-1` joined to `v`. -/
noncomputable def Spec.classOf (n : ℕ) (edges : List (ℕ × ℕ)) (v : ℕ) : Finset ℕ :=
  (Finset.range n).filter (Spec.Joined edges v)

/-- What a draw is: a size in range, edges between nodes of the graph, some order of the nodes of a view, uniform
draws in `[0, 1)`. -/
structure Spec.GenDraw (a : GenArgs) (t : GenTry) : Prop where
  size_le : t.size ≤ a.maxN - a.minN
  edge_lt : ∀ e ∈ t.edges, e.1 < t.size + a.minN ∧ e.2 < t.size + a.minN
  order_perm : ∀ s, (t.order s).Perm s
  u_mem : ∀ i, 0 ≤ t.u i ∧ t.u i < 1

namespace GenC

theorem mem_classOf {n : ℕ} {edges : List (ℕ × ℕ)} {v w : ℕ} :
    w ∈ Spec.classOf n edges v ↔ w < n ∧ Spec.Joined edges v w := by
  simp only [Spec.classOf, Finset.mem_filter, Finset.mem_range]

theorem classOf_subset (n : ℕ) (edges : List (ℕ × ℕ)) (v : ℕ) : Spec.classOf n edges v ⊆ Finset.range n :=
  fun _ h => Finset.mem_range.2 (mem_classOf.1 h).1

theorem joined_symm {edges : List (ℕ × ℕ)} {u v : ℕ} (h : Spec.Joined edges u v) : Spec.Joined edges v u := by
  induction h with
  | refl => exact Relation.ReflTransGen.refl
  | tail _ h2 ih => exact Relation.ReflTransGen.head h2.symm ih

theorem joined_lt {n : ℕ} {edges : List (ℕ × ℕ)} (he : ∀ e ∈ edges, e.1 < n ∧ e.2 < n) {u v : ℕ} (hu : u < n)
    (h : Spec.Joined edges u v) : v < n := by
  induction h with
  | refl => exact hu
  | tail _ h2 _ =>
    rcases h2 with h2 | h2
    · exact (he _ h2).2
    · exact (he _ h2).1

theorem mem_grow {g : DrawnGraph} {s : List ℕ} {v : ℕ} :
    v ∈ g.grow s ↔ v < g.n ∧ (v ∈ s ∨ ∃ u ∈ s, (u, v) ∈ g.edges ∨ (v, u) ∈ g.edges) := by
  unfold DrawnGraph.grow
  rw [List.mem_filter, List.mem_range, Bool.or_eq_true, decide_eq_true_iff, List.any_eq_true]
  refine and_congr_right fun _ => or_congr_right ⟨?_, ?_⟩
  · rintro ⟨⟨a, b⟩, he, h⟩
    rw [Bool.or_eq_true, decide_eq_true_iff, decide_eq_true_iff] at h
    rcases h with ⟨h1, h2⟩ | ⟨h1, h2⟩
    · simp only at h1 h2; subst h2; exact ⟨a, h1, Or.inl he⟩
    · simp only at h1 h2; subst h2; exact ⟨b, h1, Or.inr he⟩
  · rintro ⟨u, hu, h | h⟩
    · exact ⟨_, h, by simp [hu]⟩
    · exact ⟨_, h, by simp [hu]⟩

theorem nodup_grow (g : DrawnGraph) (s : List ℕ) : (g.grow s).Nodup := List.nodup_range.filter _

theorem level_nodup (g : DrawnGraph) (v k : ℕ) : (g.grow^[k] [v]).Nodup := by
  cases k with
  | zero => simp
  | succ k => rw [Function.iterate_succ_apply']; exact nodup_grow _ _

theorem level_lt {g : DrawnGraph} {v : ℕ} (hv : v < g.n) (k : ℕ) : ∀ w ∈ g.grow^[k] [v], w < g.n := by
  cases k with
  | zero => simp [hv]
  | succ k => rw [Function.iterate_succ_apply']; exact fun w h => (mem_grow.1 h).1

theorem level_joined (g : DrawnGraph) (v k : ℕ) : ∀ w ∈ g.grow^[k] [v], Spec.Joined g.edges v w := by
  induction k with
  | zero => intro w hw; rw [List.mem_singleton.1 hw]; exact Relation.ReflTransGen.refl
  | succ k ih =>
    intro w hw
    rw [Function.iterate_succ_apply'] at hw
    rcases (mem_grow.1 hw).2 with h | ⟨u, hu, h⟩
    · exact ih w h
    · exact (ih u hu).tail h

/-- Every level is closed or has more nodes than its number. -/
theorem level_step {g : DrawnGraph} {v : ℕ} (hv : v < g.n) (k : ℕ) :
    (∀ w ∈ g.grow (g.grow^[k] [v]), w ∈ g.grow^[k] [v]) ∨ k + 1 ≤ (g.grow^[k] [v]).length := by
  induction k with
  | zero => right; simp
  | succ k ih =>
    rw [Function.iterate_succ_apply']
    set s := g.grow^[k] [v] with hs
    by_cases hc : ∀ w ∈ g.grow s, w ∈ s
    · left
      intro w hw
      obtain ⟨h1, h2⟩ := mem_grow.1 hw
      refine mem_grow.2 ⟨h1, ?_⟩
      rcases h2 with h2 | ⟨u, hu, h2⟩
      · exact Or.inl (hc w h2)
      · exact Or.inr ⟨u, hc u hu, h2⟩
    · right
      have hk := ih.resolve_left hc
      push Not at hc
      obtain ⟨w, hw, hws⟩ := hc
      have hsub : s.toFinset ⊂ (g.grow s).toFinset := by
        refine ⟨fun x hx => ?_, fun h => hws (List.mem_toFinset.1 (h (List.mem_toFinset.2 hw)))⟩
        rw [List.mem_toFinset] at hx ⊢
        exact mem_grow.2 ⟨level_lt hv k x hx, Or.inl hx⟩
      have := Finset.card_lt_card hsub
      rw [List.toFinset_card_of_nodup (hs ▸ level_nodup g v k), List.toFinset_card_of_nodup (nodup_grow g s)] at this
      omega

theorem mem_level_zero {g : DrawnGraph} {v : ℕ} (hv : v < g.n) (k : ℕ) : v ∈ g.grow^[k] [v] := by
  induction k with
  | zero => simp
  | succ k ih => rw [Function.iterate_succ_apply']; exact mem_grow.2 ⟨hv, Or.inl ih⟩

theorem mem_component {g : DrawnGraph} (he : ∀ e ∈ g.edges, e.1 < g.n ∧ e.2 < g.n) {v : ℕ} (hv : v < g.n) {w : ℕ} :
    w ∈ g.component v ↔ Spec.Joined g.edges v w := by
  refine ⟨level_joined g v _ w, fun h => ?_⟩
  have hcl : ∀ w ∈ g.grow (g.component v), w ∈ g.component v := by
    refine (level_step hv g.n).resolve_right fun hl => ?_
    have h1 : (g.grow^[g.n] [v]).toFinset ⊆ Finset.range g.n := fun x hx =>
      Finset.mem_range.2 (level_lt hv _ x (List.mem_toFinset.1 hx))
    have h2 := Finset.card_le_card h1
    rw [List.toFinset_card_of_nodup (level_nodup g v _), Finset.card_range] at h2
    omega
  induction h with
  | refl => exact mem_level_zero hv _
  | tail _ h2 ih =>
    refine hcl _ (mem_grow.2 ⟨?_, Or.inr ⟨_, ih, h2⟩⟩)
    rcases h2 with h2 | h2
    · exact (he _ h2).2
    · exact (he _ h2).1

theorem component_toFinset {g : DrawnGraph} (he : ∀ e ∈ g.edges, e.1 < g.n ∧ e.2 < g.n) {v : ℕ} (hv : v < g.n) :
    (g.component v).toFinset = Spec.classOf g.n g.edges v := by
  ext w
  rw [List.mem_toFinset, mem_component he hv, mem_classOf]
  exact ⟨fun h => ⟨joined_lt he hv h, h⟩, fun h => h.2⟩

theorem component_length {g : DrawnGraph} (he : ∀ e ∈ g.edges, e.1 < g.n ∧ e.2 < g.n) {v : ℕ} (hv : v < g.n) :
    (g.component v).length = (Spec.classOf g.n g.edges v).card := by
  rw [← component_toFinset he hv, List.toFinset_card_of_nodup (show (g.component v).Nodup from level_nodup g v _)]

theorem classOf_congr {n : ℕ} {edges : List (ℕ × ℕ)} {u v : ℕ} (h : Spec.Joined edges u v) :
    Spec.classOf n edges u = Spec.classOf n edges v := by
  ext w
  rw [mem_classOf, mem_classOf]
  exact and_congr_right fun _ => ⟨fun h' => (joined_symm h).trans h', fun h' => h.trans h'⟩

theorem components_sound (g : DrawnGraph) : ∀ (vs seen : List ℕ), ∀ c ∈ g.components vs seen,
    ∃ v ∈ vs, c = g.component v := by
  intro vs
  induction vs with
  | nil => intro seen c h; simp [DrawnGraph.components] at h
  | cons v vs ih =>
    intro seen c h
    rw [DrawnGraph.components] at h
    split at h
    · obtain ⟨u, h1, h2⟩ := ih _ c h
      exact ⟨u, List.mem_cons_of_mem _ h1, h2⟩
    · rcases List.mem_cons.1 h with h | h
      · exact ⟨v, List.mem_cons_self, h⟩
      · obtain ⟨u, h1, h2⟩ := ih _ c h
        exact ⟨u, List.mem_cons_of_mem _ h1, h2⟩

theorem components_complete {g : DrawnGraph} : ∀ (vs seen : List ℕ), ∀ v ∈ vs, v < g.n →
    v ∈ seen ∨ ∃ c ∈ g.components vs seen, v ∈ c := by
  intro vs
  induction vs with
  | nil => intro seen v h; simp at h
  | cons u vs ih =>
    intro seen v h hv
    rw [DrawnGraph.components]
    by_cases hu : u ∈ seen
    · rw [if_pos hu]
      rcases List.mem_cons.1 h with h | h
      · exact Or.inl (h ▸ hu)
      · exact ih seen v h hv
    · rw [if_neg hu]
      rcases List.mem_cons.1 h with h | h
      · exact Or.inr ⟨_, List.mem_cons_self, h ▸ mem_level_zero (h ▸ hv) _⟩
      · rcases ih (seen ++ g.component u) v h hv with h' | ⟨c, hc, h'⟩
        · rcases List.mem_append.1 h' with h' | h'
          · exact Or.inl h'
          · exact Or.inr ⟨_, List.mem_cons_self, h'⟩
        · exact Or.inr ⟨c, List.mem_cons_of_mem _ hc, h'⟩

theorem longest_spec {l : List (List ℕ)} {c : List ℕ} (h : longest l = some c) :
    c ∈ l ∧ ∀ d ∈ l, d.length ≤ c.length := by
  cases l with
  | nil => simp [longest] at h
  | cons a l =>
    rw [longest, Option.some.injEq] at h
    have : ∀ (l : List (List ℕ)) (b : List ℕ),
        let r := l.foldl (fun b c => if b.length < c.length then c else b) b
        (r = b ∨ r ∈ l) ∧ b.length ≤ r.length ∧ ∀ d ∈ l, d.length ≤ r.length := by
      intro l
      induction l with
      | nil => intro b; simp
      | cons x l ih =>
        intro b
        simp only [List.foldl_cons]
        obtain ⟨h1, h2, h3⟩ := ih (if b.length < x.length then x else b)
        by_cases hx : b.length < x.length
        · rw [if_pos hx] at h1 h2 h3 ⊢
          refine ⟨Or.inr ?_, hx.le.trans h2, ?_⟩
          · rcases h1 with h1 | h1
            · rw [h1]; exact List.mem_cons_self
            · exact List.mem_cons_of_mem _ h1
          · intro d hd
            rcases List.mem_cons.1 hd with hd | hd
            · rw [hd]; exact h2
            · exact h3 d hd
        · rw [if_neg hx] at h1 h2 h3 ⊢
          refine ⟨?_, h2, ?_⟩
          · rcases h1 with h1 | h1
            · exact Or.inl h1
            · exact Or.inr (List.mem_cons_of_mem _ h1)
          · intro d hd
            rcases List.mem_cons.1 hd with hd | hd
            · rw [hd]; exact (not_lt.1 hx).trans h2
            · exact h3 d hd
    obtain ⟨h1, h2, h3⟩ := this l a
    rw [h] at h1 h2 h3
    refine ⟨?_, ?_⟩
    · rcases h1 with h1 | h1
      · rw [h1]; exact List.mem_cons_self
      · exact List.mem_cons_of_mem _ h1
    · intro d hd
      rcases List.mem_cons.1 hd with hd | hd
      · rw [hd]; exact h2
      · exact h3 d hd

/-- The largest component, as the code finds it. -/
theorem largest_spec {g : DrawnGraph} (he : ∀ e ∈ g.edges, e.1 < g.n ∧ e.2 < g.n) (hn : 0 < g.n) :
    ∃ v < g.n, longest (g.components (List.range g.n) []) = some (g.component v) ∧
      ∀ w < g.n, (Spec.classOf g.n g.edges w).card ≤ (Spec.classOf g.n g.edges v).card := by
  obtain ⟨c, hc⟩ : ∃ c, longest (g.components (List.range g.n) []) = some c := by
    rcases components_complete (g := g) (List.range g.n) [] 0 (List.mem_range.2 hn) hn with h | ⟨c, hc, _⟩
    · simp at h
    · cases hl : g.components (List.range g.n) [] with
      | nil => rw [hl] at hc; simp at hc
      | cons a l => exact ⟨_, rfl⟩
  obtain ⟨h1, h2⟩ := longest_spec hc
  obtain ⟨v, hv, rfl⟩ := components_sound g _ _ c h1
  have hv := List.mem_range.1 hv
  refine ⟨v, hv, hc, fun w hw => ?_⟩
  rcases components_complete (g := g) (List.range g.n) [] w (List.mem_range.2 hw) hw with h | ⟨d, hd, h⟩
  · simp at h
  · obtain ⟨u, hu, rfl⟩ := components_sound g _ _ d hd
    have hu := List.mem_range.1 hu
    have := h2 _ hd
    rw [component_length he hu, component_length he hv] at this
    rwa [← classOf_congr ((mem_component he hu).1 h)]

end GenC

/-- What a graph built from the largest component of a drawn graph is: its nodes are `0..k-1`, and `f` maps them
one-to-one onto a largest set of joined nodes, taking the edges to the drawn edges between these. -/
structure Spec.LargestPart (n : ℕ) (drawn : List (ℕ × ℕ)) (nodes : List ℕ) (edges : List (ℕ × ℕ)) (f : ℕ → ℕ)
    (v : ℕ) : Prop where
  nodes_perm : nodes.Perm (List.range nodes.length)
  lt : v < n
  inj : ∀ i < nodes.length, ∀ j < nodes.length, f i = f j → i = j
  image : (Finset.range nodes.length).image f = Spec.classOf n drawn v
  largest : ∀ w < n, (Spec.classOf n drawn w).card ≤ nodes.length
  edge_lt : ∀ e ∈ edges, e.1 < nodes.length ∧ e.2 < nodes.length
  edges_eq : edges.map (fun e => (f e.1, f e.2)) =
    drawn.filter fun e => decide (e.1 ∈ Spec.classOf n drawn v ∧ e.2 ∈ Spec.classOf n drawn v)

namespace GenC

theorem max?_range (k : ℕ) (hk : 0 < k) : (List.range k).max? = some (k - 1) := by
  rw [List.max?_eq_some_iff]
  refine ⟨List.mem_range.2 (by omega), fun b hb => ?_⟩
  have := List.mem_range.1 hb
  omega

theorem filter_congr_mem {l c : List ℕ} (h : l.Perm c) (es : List (ℕ × ℕ)) :
    (es.filter fun e => decide (e.1 ∈ l ∧ e.2 ∈ l)) =
      es.filter fun e => decide (e.1 ∈ c.toFinset ∧ e.2 ∈ c.toFinset) := by
  refine List.filter_congr fun e _ => ?_
  rw [decide_eq_decide, h.mem_iff, h.mem_iff, List.mem_toFinset, List.mem_toFinset]

/-- One attempt with random edges. -/
theorem plain_er {a : GenArgs} {t : GenTry} (ht : Spec.GenDraw a t) (ha : a.gType = "erdos_renyi") (hp : a.erP ≠ none)
    (hm : 0 < a.minN) (hmn : a.minN ≤ a.maxN) :
    (genPlain a t = .ok none ∧
      ∀ w < t.size + a.minN, (Spec.classOf (t.size + a.minN) t.edges w).card < a.minN) ∨
    ∃ nodes edges f v, genPlain a t = .ok (some (nodes, edges)) ∧ a.minN ≤ nodes.length ∧ nodes.length ≤ a.maxN ∧
      Spec.LargestPart (t.size + a.minN) t.edges nodes edges f v := by
  set n := t.size + a.minN with hndef
  have hn : 0 < n := by omega
  let g : DrawnGraph := ⟨n, t.edges⟩
  obtain ⟨v, hv, hl, hbig⟩ := largest_spec (g := g) ht.edge_lt hn
  obtain ⟨p, hp⟩ := Option.ne_none_iff_exists'.1 hp
  have hperm := ht.order_perm (g.component v)
  set nodes := t.order (g.component v) with hnodes
  have hnd : nodes.Nodup := hperm.nodup_iff.2 (level_nodup g v _)
  have hlen : nodes.length = (Spec.classOf n t.edges v).card := by
    rw [hperm.length_eq, component_length (g := g) ht.edge_lt hv]
  have hmem : ∀ x, x ∈ nodes ↔ x ∈ Spec.classOf n t.edges v := by
    intro x
    rw [hperm.mem_iff, ← List.mem_toFinset, component_toFinset (g := g) ht.edge_lt hv]
  have hltn : ∀ x ∈ nodes, x < n := fun x hx => level_lt (g := g) hv _ x (hperm.mem_iff.1 hx)
  set es := t.edges.filter fun e => decide (e.1 ∈ nodes ∧ e.2 ∈ nodes) with hes
  have hes2 : es = t.edges.filter fun e =>
      decide (e.1 ∈ Spec.classOf n t.edges v ∧ e.2 ∈ Spec.classOf n t.edges v) := by
    rw [hes, filter_congr_mem hperm, component_toFinset (g := g) ht.edge_lt hv]
  have hese : ∀ e ∈ es, e.1 ∈ nodes ∧ e.2 ∈ nodes := fun e he => of_decide_eq_true (List.mem_filter.1 he).2
  have hnpos : 0 < nodes.length := by
    rw [hlen, Finset.card_pos]
    exact ⟨v, (hmem v).1 (hperm.mem_iff.2 (mem_level_zero (g := g) hv _))⟩
  have hnmax : nodes.length ≤ a.maxN := by
    have h1 : (Spec.classOf n t.edges v).card ≤ (Finset.range n).card := Finset.card_le_card (classOf_subset _ _ _)
    have h2 := ht.size_le
    rw [Finset.card_range] at h1
    omega
  unfold genPlain
  simp only [ha, if_true, hp]
  change (_ ∧ _) ∨ _
  rw [show longest ((⟨t.size + a.minN, t.edges⟩ : DrawnGraph).components (List.range (t.size + a.minN)) []) =
    some (g.component v) from hl]
  simp only
  rw [← hnodes]
  by_cases hsmall : nodes.length < a.minN
  · left
    rw [if_pos hsmall]
    exact ⟨rfl, fun w hw => ((hbig w hw).trans_lt (hlen ▸ hsmall))⟩
  · right
    rw [if_neg hsmall, ← hes]
    obtain ⟨mx, hmx⟩ : ∃ mx, nodes.max? = some mx := by
      cases hx : nodes.max? with
      | none => rw [List.max?_eq_none_iff] at hx; rw [hx] at hnpos; simp at hnpos
      | some mx => exact ⟨mx, rfl⟩
    rw [hmx]
    simp only
    obtain ⟨hmx1, hmx2⟩ := List.max?_eq_some_iff.1 hmx
    by_cases hr : mx ≠ nodes.length - 1
    · obtain ⟨out, ho1, ho2⟩ := relabel_isomorphism hnd hese
      rw [if_pos hr, ho1]
      simp only [Option.map_some, List.length_range]
      rw [max?_range _ hnpos]
      simp only [ne_eq, not_true_eq_false, if_false]
      rw [if_neg (by omega)]
      have hget : ∀ i < nodes.length, nodes.getD i 0 ∈ nodes := fun i hi => by
        rw [List.getD_eq_getElem _ _ hi]; exact List.getElem_mem hi
      refine ⟨_, _, fun i => nodes.getD i 0, v, rfl, by simpa using not_lt.1 hsmall, by simpa using hnmax, ?_⟩
      constructor
      · simp
      · exact hv
      · intro i hi j hj hij
        rw [List.length_range] at hi hj
        simp only [List.getD_eq_getElem _ _ hi, List.getD_eq_getElem _ _ hj] at hij
        exact (List.Nodup.getElem_inj_iff hnd).1 hij
      · ext x
        rw [← hmem, Finset.mem_image, List.length_range]
        constructor
        · rintro ⟨i, hi, rfl⟩
          exact hget i (Finset.mem_range.1 hi)
        · intro hx
          obtain ⟨i, hi, hix⟩ := List.getElem_of_mem hx
          exact ⟨i, Finset.mem_range.2 hi, by rw [List.getD_eq_getElem _ _ hi, hix]⟩
      · intro w hw
        rw [List.length_range, hlen]
        exact hbig w hw
      · rw [List.length_range]
        intro e he
        obtain ⟨e', _, h1, h2⟩ : ∃ e' ∈ es, nodes[e.1]? = some e'.1 ∧ nodes[e.2]? = some e'.2 := by
          clear_value es
          clear hes hes2 hese ho1
          induction ho2 with
          | nil => simp at he
          | cons h hs ih =>
            rcases List.mem_cons.1 he with he | he
            · rw [he]; exact ⟨_, List.mem_cons_self, h⟩
            · obtain ⟨e', h1, h2⟩ := ih he
              exact ⟨e', List.mem_cons_of_mem _ h1, h2⟩
        exact ⟨(List.getElem?_eq_some_iff.1 h1).1, (List.getElem?_eq_some_iff.1 h2).1⟩
      · rw [← hes2]
        clear_value es
        clear hes hes2 hese ho1
        induction ho2 with
        | nil => rfl
        | cons h hs ih =>
          rw [List.map_cons, ih, List.getD_eq_getElem?_getD, List.getD_eq_getElem?_getD, h.1, h.2]
          rfl
    · have hr' : mx = nodes.length - 1 := not_not.1 hr
      rw [if_neg hr]
      simp only [hmx]
      rw [if_neg hr, if_neg (by omega)]
      have hall := relabel_skip hnd fun x hx => hr' ▸ hmx2 x hx
      refine ⟨_, _, id, v, rfl, not_lt.1 hsmall, hnmax, ?_⟩
      constructor
      · rw [List.perm_ext_iff_of_nodup hnd List.nodup_range]
        intro x
        rw [hall, List.mem_range]
      · exact hv
      · exact fun _ _ _ _ h => h
      · ext x
        rw [← hmem, Finset.image_id, Finset.mem_range, hall]
      · intro w hw
        rw [hlen]
        exact hbig w hw
      · exact fun e he => ⟨(hall _).1 (hese e he).1, (hall _).1 (hese e he).2⟩
      · rw [← hes2]; simp

end GenC

/-- In a part that is a largest set of joined nodes of the drawn graph all nodes are joined by its own edges. -/
theorem largestPart_joined {n : ℕ} {drawn : List (ℕ × ℕ)} {nodes : List ℕ} {edges : List (ℕ × ℕ)} {f : ℕ → ℕ} {v : ℕ}
    (hd : ∀ e ∈ drawn, e.1 < n ∧ e.2 < n) (h : Spec.LargestPart n drawn nodes edges f v) {i j : ℕ} (hi : i < nodes.length)
    (hj : j < nodes.length) : Spec.Joined edges i j := by
  have hcl : ∀ i < nodes.length, f i < n ∧ Spec.Joined drawn v (f i) := fun i hi => by
    rw [← GenC.mem_classOf, ← h.image]
    exact Finset.mem_image_of_mem _ (Finset.mem_range.2 hi)
  have key : ∀ y, Spec.Joined drawn (f i) y → ∀ j < nodes.length, f j = y → Spec.Joined edges i j := by
    intro y hy
    induction hy with
    | refl => intro j hj hjy; rw [h.inj j hj i hi hjy]; exact Relation.ReflTransGen.refl
    | @tail x y h1 h2 ih =>
      intro j hj hjy
      have hx : x ∈ Spec.classOf n drawn v := by
        have h3 := (hcl i hi).2.trans h1
        exact GenC.mem_classOf.2 ⟨GenC.joined_lt hd h.lt h3, h3⟩
      have hy : y ∈ Spec.classOf n drawn v := by
        have h3 := ((hcl i hi).2.trans h1).tail h2
        exact GenC.mem_classOf.2 ⟨GenC.joined_lt hd h.lt h3, h3⟩
      rcases h2 with h2 | h2
      · have : (x, y) ∈ edges.map (fun e => (f e.1, f e.2)) := by
          rw [h.edges_eq]; exact List.mem_filter.2 ⟨h2, by simp [hx, hy]⟩
        obtain ⟨e, he, hexy⟩ := List.mem_map.1 this
        obtain ⟨e1, e2⟩ := Prod.mk.inj hexy
        have hl := h.edge_lt e he
        have h5 : e.2 = j := h.inj _ hl.2 _ hj (e2.trans hjy.symm)
        exact (ih e.1 hl.1 e1).tail (Or.inl (h5 ▸ he))
      · have : (y, x) ∈ edges.map (fun e => (f e.1, f e.2)) := by
          rw [h.edges_eq]; exact List.mem_filter.2 ⟨h2, by simp [hx, hy]⟩
        obtain ⟨e, he, hexy⟩ := List.mem_map.1 this
        obtain ⟨e1, e2⟩ := Prod.mk.inj hexy
        have hl := h.edge_lt e he
        have h5 : e.1 = j := h.inj _ hl.1 _ hj (e1.trans hjy.symm)
        exact (ih e.2 hl.2 e2).tail (Or.inr (h5 ▸ he))
  exact key (f j) ((GenC.joined_symm (hcl i hi).2).trans (hcl j hj).2) j hj rfl

namespace GenC

theorem weights_ok {f : Option RandFn} {t : GenTry} {p : List ℕ × List (ℕ × ℕ)} {g : GenGraph}
    (h : genWeights f t p = .ok g) :
    (g.nodes = p.1 ∨ g.nodes = List.range p.1.length) ∧ g.edges = p.2 ∧ (g.weights = none ↔ f = none) ∧
      ∀ r, f = some r → ∃ w, r.draw t p.2.length = .ok w ∧ g.weights = some w := by
  cases f with
  | none =>
    simp only [genWeights, Except.ok.injEq] at h
    subst h; simp
  | some r =>
    simp only [genWeights] at h
    cases hd : r.draw t p.2.length with
    | error e => rw [hd] at h; cases h
    | ok w =>
      rw [hd] at h
      have h : (⟨List.range p.1.length, p.2, some w⟩ : GenGraph) = g := Except.ok.inj h
      subst h
      refine ⟨Or.inr rfl, rfl, by simp, ?_⟩
      intro r' hr
      rw [Option.some.injEq] at hr
      subst hr
      exact ⟨w, hd, rfl⟩

theorem largestPart_nodes {n : ℕ} {drawn : List (ℕ × ℕ)} {nodes nodes' : List ℕ} {edges : List (ℕ × ℕ)} {f : ℕ → ℕ}
    {v : ℕ} (h : Spec.LargestPart n drawn nodes edges f v) (h' : nodes' = nodes ∨ nodes' = List.range nodes.length) :
    nodes'.length = nodes.length ∧ Spec.LargestPart n drawn nodes' edges f v := by
  rcases h' with rfl | rfl
  · exact ⟨rfl, h⟩
  · refine ⟨by simp, ?_⟩
    obtain ⟨a, b, c, d, e, f', g⟩ := h
    constructor
    · simp
    · exact b
    · simpa using c
    · simpa using d
    · simpa using e
    · rw [List.length_range]; exact f'
    · exact g

/-- The loop: either every attempt was too small, or the first that was not gives the result. -/
theorem loop_er {a : GenArgs} {ts : ℕ → GenTry} (ht : ∀ k, Spec.GenDraw a (ts k)) (ha : a.gType = "erdos_renyi")
    (hp : a.erP ≠ none) (hm : 0 < a.minN) (hmn : a.minN ≤ a.maxN) (f : Option RandFn) (fuel k : ℕ) :
    (genLoop a f ts fuel k = .ok none ∧ ∀ i < fuel, ∀ w < (ts (k + i)).size + a.minN,
      (Spec.classOf ((ts (k + i)).size + a.minN) (ts (k + i)).edges w).card < a.minN) ∨
    ∃ i < fuel, (∀ j < i, ∀ w < (ts (k + j)).size + a.minN,
        (Spec.classOf ((ts (k + j)).size + a.minN) (ts (k + j)).edges w).card < a.minN) ∧
      ∃ nodes edges l v, genLoop a f ts fuel k = (genWeights f (ts (k + i)) (nodes, edges)).map some ∧
        a.minN ≤ nodes.length ∧ nodes.length ≤ a.maxN ∧
        Spec.LargestPart ((ts (k + i)).size + a.minN) (ts (k + i)).edges nodes edges l v := by
  induction fuel generalizing k with
  | zero => left; exact ⟨rfl, fun i hi => absurd hi (by omega)⟩
  | succ fuel ih =>
    rw [genLoop, if_neg (by omega)]
    rcases plain_er (ht k) ha hp hm hmn with ⟨h1, h2⟩ | ⟨nodes, edges, l, v, h1, h2, h3, h4⟩
    · rw [h1]
      simp only
      rcases ih (k + 1) with ⟨h3, h4⟩ | ⟨i, hi, h3, h4⟩
      · left
        refine ⟨h3, fun i hi => ?_⟩
        cases i with
        | zero => exact h2
        | succ i => have := h4 i (by omega); rwa [show k + 1 + i = k + (i + 1) by omega] at this
      · right
        refine ⟨i + 1, by omega, fun j hj => ?_, ?_⟩
        · cases j with
          | zero => exact h2
          | succ j => have := h3 j (by omega); rwa [show k + 1 + j = k + (j + 1) by omega] at this
        · rwa [show k + 1 + i = k + (i + 1) by omega] at h4
    · right
      refine ⟨0, by omega, fun j hj => absurd hj (by omega), nodes, edges, l, v, ?_, h2, h3, h4⟩
      rw [h1]
      rfl

end GenC

/-- **C129.** A graph returned for `g_type = 'erdos_renyi'` has between `min_n` and `max_n` nodes, numbered from zero;
it is, up to the numbering, a largest connected part of the first drawn graph that has a connected part of `min_n`
nodes; and all its nodes are joined. -/
theorem gen_connected_graph {a : GenArgs} {ts : ℕ → GenTry} (ht : ∀ k, Spec.GenDraw a (ts k))
    (ha : a.gType = "erdos_renyi") (hp : a.erP ≠ none) (hm : 0 < a.minN) (hmn : a.minN ≤ a.maxN) {g : GenGraph}
    (hg : genConnected a ts = .ok (some g)) :
    a.minN ≤ g.nodes.length ∧ g.nodes.length ≤ a.maxN ∧ g.nodes.Perm (List.range g.nodes.length) ∧
    (∀ u ∈ g.nodes, ∀ v ∈ g.nodes, Spec.Joined g.edges u v) ∧
    ∃ i < 20, (∀ j < i, ∀ w < (ts j).size + a.minN,
        (Spec.classOf ((ts j).size + a.minN) (ts j).edges w).card < a.minN) ∧
      ∃ l v, Spec.LargestPart ((ts i).size + a.minN) (ts i).edges g.nodes g.edges l v := by
  unfold genConnected at hg
  cases hf : randFn a with
  | error e => rw [hf] at hg; cases hg
  | ok f =>
    rw [hf] at hg
    change genLoop a f ts 20 0 = _ at hg
    rcases GenC.loop_er ht ha hp hm hmn f 20 0 with ⟨h1, _⟩ | ⟨i, hi, h1, nodes, edges, l, v, h2, h3, h4, h5⟩
    · rw [h1] at hg; cases hg
    · simp only [Nat.zero_add] at h1 h2 h5
      rw [h2] at hg
      cases hw : genWeights f (ts i) (nodes, edges) with
      | error e => rw [hw] at hg; cases hg
      | ok g' =>
        rw [hw] at hg
        have hg : g' = g := by simpa [Except.map] using hg
        subst hg
        obtain ⟨hn, he, _⟩ := GenC.weights_ok hw
        have he : g'.edges = edges := he
        obtain ⟨hl, h6⟩ := GenC.largestPart_nodes h5 hn
        rw [← he] at h6
        refine ⟨hl ▸ h3, hl ▸ h4, h6.nodes_perm, fun u hu w hw' => ?_, i, hi, h1, l, v, h6⟩
        exact largestPart_joined (ht i).edge_lt h6 (List.mem_range.1 (h6.nodes_perm.mem_iff.1 hu))
          (List.mem_range.1 (h6.nodes_perm.mem_iff.1 hw'))

/-- **C129 (no graph).** With arguments that are in order, Python's `None` comes back exactly if none of the twenty
drawn graphs has a connected part of `min_n` nodes. -/
theorem gen_connected_none_iff {a : GenArgs} {ts : ℕ → GenTry} (ht : ∀ k, Spec.GenDraw a (ts k))
    (ha : a.gType = "erdos_renyi") (hp : a.erP ≠ none) (hm : 0 < a.minN) (hmn : a.minN ≤ a.maxN) {f : Option RandFn}
    (hf : randFn a = .ok f) :
    genConnected a ts = .ok none ↔ ∀ i < 20, ∀ w < (ts i).size + a.minN,
      (Spec.classOf ((ts i).size + a.minN) (ts i).edges w).card < a.minN := by
  unfold genConnected
  rw [hf]
  change genLoop a f ts 20 0 = _ ↔ _
  rcases GenC.loop_er ht ha hp hm hmn f 20 0 with ⟨h1, h2⟩ | ⟨i, hi, _, nodes, edges, l, v, h2, h3, _, h5⟩
  · simp only [Nat.zero_add] at h2
    exact ⟨fun _ => h2, fun _ => h1⟩
  · simp only [Nat.zero_add] at h2 h5
    constructor
    · intro h
      rw [h2] at h
      cases hw : genWeights f (ts i) (nodes, edges) with
      | error e => rw [hw] at h; cases h
      | ok g' => rw [hw] at h; simp [Except.map] at h
    · intro h
      have h6 := h i hi v h5.lt
      have h7 : (Spec.classOf ((ts i).size + a.minN) (ts i).edges v).card = nodes.length := by
        rw [← h5.image, Finset.card_image_of_injOn, Finset.card_range]
        intro x hx y hy hxy
        exact h5.inj x (by simpa using hx) y (by simpa using hy) hxy
      omega

/-- **C129 (no exception).** With arguments that are in order the call returns; the one exception left is that of an
empty range of integer weights. -/
theorem gen_connected_returns {a : GenArgs} {ts : ℕ → GenTry} (ht : ∀ k, Spec.GenDraw a (ts k))
    (ha : a.gType = "erdos_renyi") (hp : a.erP ≠ none) (hm : 0 < a.minN) (hmn : a.minN ≤ a.maxN)
    (hw : a.wType = none ∨
      (∃ lo hi, a.wMin = some lo ∧ a.wMax = some hi ∧
        (a.wType = some "uniform" ∨ (a.wType = some "int" ∧ pyInt lo < pyInt hi))) ∨
      (∃ s m, a.wStd = some s ∧ a.wMean = some m ∧ a.wType = some "normal")) :
    ∃ r, genConnected a ts = .ok r := by
  obtain ⟨f, hf, hd⟩ : ∃ f, randFn a = .ok f ∧ ∀ r, f = some r → ∀ t n, ∃ w, r.draw t n = .ok w := by
    rcases hw with h | ⟨lo, hi, h1, h2, h | ⟨h, h3⟩⟩ | ⟨s, m, h1, h2, h⟩
    · exact ⟨none, by simp [randFn, h], by simp⟩
    · refine ⟨some (.uniform lo hi), by simp [randFn, h, h1, h2, kwarg, bind, Except.bind], ?_⟩
      rintro r hr t n
      cases hr
      exact ⟨_, rfl⟩
    · refine ⟨some (.int (pyInt lo) (pyInt hi)), by simp [randFn, h, h1, h2, kwarg, bind, Except.bind], ?_⟩
      rintro r hr t n
      cases hr
      exact ⟨_, by rw [RandFn.draw, if_neg (by omega)]⟩
    · refine ⟨some (.normal s m), by simp [randFn, h, h1, h2, kwarg, bind, Except.bind], ?_⟩
      rintro r hr t n
      cases hr
      exact ⟨_, rfl⟩
  unfold genConnected
  rw [hf]
  change ∃ r, genLoop a f ts 20 0 = .ok r
  rcases GenC.loop_er ht ha hp hm hmn f 20 0 with ⟨h1, _⟩ | ⟨i, hi, _, nodes, edges, l, v, h2, _⟩
  · exact ⟨_, h1⟩
  · rw [h2]
    cases f with
    | none => exact ⟨_, rfl⟩
    | some r =>
      obtain ⟨w, hw⟩ := hd r rfl (ts (0 + i)) edges.length
      refine ⟨some ⟨List.range nodes.length, edges, some w⟩, ?_⟩
      rw [genWeights, hw]
      rfl

namespace GenC

/-- Weights come from some attempt, one per edge. -/
theorem loop_weights {a : GenArgs} {ts : ℕ → GenTry} {f : Option RandFn} {g : GenGraph} (fuel k : ℕ)
    (h : genLoop a f ts fuel k = .ok (some g)) :
    (g.weights = none ↔ f = none) ∧ ∀ r, f = some r → ∃ i w, r.draw (ts i) g.edges.length = .ok w ∧ g.weights = some w := by
  induction fuel generalizing k with
  | zero => cases h
  | succ fuel ih =>
    rw [genLoop] at h
    split at h
    · cases h
    · cases hp : genPlain a (ts k) with
      | error e => rw [hp] at h; cases h
      | ok o =>
        rw [hp] at h
        cases o with
        | none => exact ih (k + 1) h
        | some p =>
          simp only at h
          cases hw : genWeights f (ts k) p with
          | error e => rw [hw] at h; cases h
          | ok g' =>
            rw [hw] at h
            have hg : g' = g := by simpa [Except.map] using h
            subst hg
            obtain ⟨_, he, h1, h2⟩ := weights_ok hw
            refine ⟨h1, fun r hr => ?_⟩
            obtain ⟨w, h3, h4⟩ := h2 r hr
            exact ⟨k, w, he ▸ h3, h4⟩

theorem randFn_of {a : GenArgs} {ts : ℕ → GenTry} {g : GenGraph} (h : genConnected a ts = .ok (some g)) :
    ∃ f, randFn a = .ok f ∧ genLoop a f ts 20 0 = .ok (some g) := by
  unfold genConnected at h
  cases hf : randFn a with
  | error e => rw [hf] at h; cases h
  | ok f => rw [hf] at h; exact ⟨f, rfl, h⟩

end GenC

/-- **C129 (weights).** Without `w_type` there are no weights; otherwise there is one for every edge: integers from
`int(w_min)` up to, but not including, `int(w_max)`; or reals from `w_min` up to, but not including, `w_max`. -/
theorem gen_connected_weights {a : GenArgs} {ts : ℕ → GenTry} (ht : ∀ k, Spec.GenDraw a (ts k)) {g : GenGraph}
    (hg : genConnected a ts = .ok (some g)) :
    (a.wType = none → g.weights = none) ∧
    (a.wType = some "int" → ∃ lo hi w, a.wMin = some lo ∧ a.wMax = some hi ∧ g.weights = some w ∧
      w.length = g.edges.length ∧ ∀ x ∈ w, ∃ z : ℤ, x = z ∧ pyInt lo ≤ z ∧ z < pyInt hi) ∧
    (a.wType = some "uniform" → ∃ lo hi w, a.wMin = some lo ∧ a.wMax = some hi ∧ g.weights = some w ∧
      w.length = g.edges.length ∧ (lo < hi → ∀ x ∈ w, lo ≤ x ∧ x < hi)) ∧
    (a.wType = some "normal" → ∃ s m w i, a.wStd = some s ∧ a.wMean = some m ∧ g.weights = some w ∧
      w = (List.range g.edges.length).map fun k => (ts i).z k * s + m) := by
  obtain ⟨f, hf, hl⟩ := GenC.randFn_of hg
  obtain ⟨h1, h2⟩ := GenC.loop_weights 20 0 hl
  refine ⟨fun hw => ?_, fun hw => ?_, fun hw => ?_, fun hw => ?_⟩
  · simp only [randFn, hw, Except.ok.injEq] at hf
    exact h1.2 hf.symm
  · cases hlo : a.wMin with
    | none => simp [randFn, hw, hlo, kwarg, bind, Except.bind] at hf
    | some lo =>
      cases hhi : a.wMax with
      | none => simp [randFn, hw, hlo, hhi, kwarg, bind, Except.bind] at hf
      | some hi =>
        simp only [randFn, hw, hlo, hhi, kwarg, bind, Except.bind, true_or, if_true, Except.ok.injEq] at hf
        obtain ⟨i, w, h3, h4⟩ := h2 _ hf.symm
        rw [RandFn.draw] at h3
        split at h3
        · cases h3
        · rename_i hne
          have h3 := Except.ok.inj h3
          refine ⟨lo, hi, w, rfl, rfl, h4, by rw [← h3]; simp, fun x hx => ?_⟩
          rw [← h3] at hx
          obtain ⟨k, hk, rfl⟩ := List.mem_map.1 hx
          have hlt : pyInt lo < pyInt hi := by
            have := List.mem_range.1 hk
            by_contra hc
            exact hne ⟨not_lt.1 hc, by omega⟩
          have hpos : (0 : ℝ) < (pyInt hi : ℝ) - pyInt lo := sub_pos.2 (Int.cast_lt.2 hlt)
          obtain ⟨hu0, hu1⟩ := (ht i).u_mem k
          refine ⟨_, rfl, ?_, ?_⟩
          · have := Int.floor_nonneg.2 (mul_nonneg hu0 hpos.le)
            omega
          · have : ⌊(ts i).u k * ((pyInt hi : ℝ) - pyInt lo)⌋ < pyInt hi - pyInt lo := by
              rw [Int.floor_lt]
              push_cast
              nlinarith
            omega
  · cases hlo : a.wMin with
    | none => simp [randFn, hw, hlo, kwarg, bind, Except.bind] at hf
    | some lo =>
      cases hhi : a.wMax with
      | none => simp [randFn, hw, hlo, hhi, kwarg, bind, Except.bind] at hf
      | some hi =>
        simp only [randFn, hw, hlo, hhi, kwarg, bind, Except.bind] at hf
        rw [if_pos (Or.inr trivial), if_neg (by decide)] at hf
        obtain ⟨i, w, h3, h4⟩ := h2 _ (Except.ok.inj hf).symm
        have h3 := Except.ok.inj h3
        refine ⟨lo, hi, w, rfl, rfl, h4, by rw [← h3]; simp, fun hlt x hx => ?_⟩
        rw [← h3] at hx
        obtain ⟨k, hk, rfl⟩ := List.mem_map.1 hx
        obtain ⟨hu0, hu1⟩ := (ht i).u_mem k
        constructor <;> nlinarith
  · cases hlo : a.wStd with
    | none => simp [randFn, hw, hlo, kwarg, bind, Except.bind] at hf
    | some s =>
      cases hhi : a.wMean with
      | none => simp [randFn, hw, hlo, hhi, kwarg, bind, Except.bind] at hf
      | some m =>
        simp only [randFn, hw, hlo, hhi, kwarg, bind, Except.bind] at hf
        rw [if_neg (by decide), if_pos trivial] at hf
        obtain ⟨i, w, h3, h4⟩ := h2 _ (Except.ok.inj hf).symm
        exact ⟨s, m, w, i, rfl, rfl, h4, (Except.ok.inj h3).symm⟩

/-- **C129 (`barabasi_albert`).** The first drawn graph is returned, with all its nodes. -/
theorem gen_connected_ba {a : GenArgs} {ts : ℕ → GenTry} (ht : ∀ k, Spec.GenDraw a (ts k))
    (ha : a.gType = "barabasi_albert") {r : Option GenGraph} (hg : genConnected a ts = .ok r) :
    ∃ g, r = some g ∧ g.nodes = List.range ((ts 0).size + a.minN) ∧ g.edges = (ts 0).edges ∧
      a.minN ≤ g.nodes.length ∧ g.nodes.length ≤ a.maxN := by
  unfold genConnected at hg
  cases hf : randFn a with
  | error e => rw [hf] at hg; cases hg
  | ok f =>
    rw [hf] at hg
    change genLoop a f ts 20 0 = _ at hg
    rw [genLoop] at hg
    by_cases hmn : a.maxN < a.minN
    · rw [if_pos hmn] at hg; cases hg
    rw [if_neg hmn, genPlain, if_neg (by rw [ha]; decide), if_pos ha] at hg
    cases hb : a.baM with
    | none => rw [hb] at hg; cases hg
    | some m =>
      rw [hb] at hg
      simp only at hg
      by_cases hm : m < 1 ∨ (ts 0).size + a.minN ≤ m
      · rw [if_pos hm] at hg; cases hg
      · rw [if_neg hm] at hg
        simp only at hg
        cases hw : genWeights f (ts 0) (List.range ((ts 0).size + a.minN), (ts 0).edges) with
        | error e => rw [hw] at hg; cases hg
        | ok g' =>
          rw [hw] at hg
          have hg : some g' = r := Except.ok.inj hg
          obtain ⟨hn, he, _⟩ := GenC.weights_ok hw
          have hn : g'.nodes = List.range ((ts 0).size + a.minN) := by
            rcases hn with hn | hn
            · exact hn
            · simpa using hn
          have := (ht 0).size_le
          refine ⟨g', hg.symm, hn, he, ?_, ?_⟩ <;> rw [hn, List.length_range] <;> omega

/-- Two to three nodes, without edges. -/
noncomputable def exEmptyArgs : GenArgs where
  gType := "erdos_renyi"
  minN := 2
  maxN := 3
  erP := some 0

/-- Draws without edges. -/
noncomputable def exEmptyTry : GenTry where
  size := 1
  edges := []
  order := id
  u := fun _ => 0
  z := fun _ => 0

/-- **C129 is not a guarantee:** arguments in order and possible draws (of sparse graphs) for which the caller gets
`None` instead of a graph, without an exception. -/
theorem gen_connected_gives_up : (∀ _ : ℕ, Spec.GenDraw exEmptyArgs exEmptyTry) ∧
    genConnected exEmptyArgs (fun _ => exEmptyTry) = .ok none := by
  have hd : Spec.GenDraw exEmptyArgs exEmptyTry :=
    ⟨by decide, by simp [exEmptyTry], fun s => List.Perm.refl _, fun i => by norm_num [exEmptyTry]⟩
  refine ⟨fun _ => hd, ?_⟩
  rw [gen_connected_none_iff (fun _ => hd) rfl (by simp [exEmptyArgs]) (by decide) (by decide) (f := none) rfl]
  intro i _ w _
  have h1 : Spec.classOf (exEmptyTry.size + exEmptyArgs.minN) exEmptyTry.edges w ⊆ {w} := by
    intro x hx
    have h := (GenC.mem_classOf.1 hx).2
    rw [Finset.mem_singleton]
    rcases h.cases_tail with h | ⟨y, _, h⟩
    · exact h
    · simp [exEmptyTry] at h
  have h2 := Finset.card_le_card h1
  rw [Finset.card_singleton] at h2
  exact lt_of_le_of_lt h2 (by decide)

/-- Three to four nodes with integer weights from one to four. -/
noncomputable def exPathArgs : GenArgs where
  gType := "erdos_renyi"
  minN := 3
  maxN := 4
  erP := some (1 / 2)
  wType := some "int"
  wMin := some 1
  wMax := some 4

/-- A draw with an isolated node `0` and the path `1 - 3 - 2`. -/
noncomputable def exPathTry : GenTry where
  size := 1
  edges := [(1, 3), (2, 3)]
  order := id
  u := fun i => if i = 0 then 0 else 1 / 2
  z := fun _ => 0

/-- Concrete case: the isolated node is dropped, the others are renumbered. -/
example : Spec.GenDraw exPathArgs exPathTry ∧
    genPlain exPathArgs exPathTry = .ok (some ([0, 1, 2], [(0, 2), (1, 2)])) := by
  refine ⟨⟨by decide, by simp [exPathTry, exPathArgs], fun s => List.Perm.refl _, fun i => ?_⟩, ?_⟩
  · simp only [exPathTry]; split <;> norm_num
  · have h : longest ((⟨1 + 3, [(1, 3), (2, 3)]⟩ : DrawnGraph).components (List.range (1 + 3)) []) = some [1, 2, 3] := by
      decide
    simp only [genPlain, exPathArgs, exPathTry, if_true, h, id]
    rfl

/-- Concrete case: the hypotheses of `gen_connected_returns`. -/
example : ∃ r, genConnected exPathArgs (fun _ => exPathTry) = .ok r := by
  refine gen_connected_returns (fun _ => ⟨by decide, by simp [exPathTry, exPathArgs], fun s => List.Perm.refl _,
    fun i => ?_⟩) rfl (by simp [exPathArgs]) (by decide) (by decide)
    (Or.inr (Or.inl ⟨1, 4, rfl, rfl, Or.inr ⟨rfl, ?_⟩⟩))
  · simp only [exPathTry]; split <;> norm_num
  · simp [pyInt]

end Discs
