import Verif.Model.Loader
import Mathlib.Data.Finset.Card
import Mathlib.Data.List.Dedup
import Mathlib.Tactic.Linarith
import Mathlib.Tactic.Ring
import Mathlib.Tactic.IntervalCases

/-!
# C43, C45, C46, C64, C65: graph loaders and config strings
-/

namespace Discs.Spec

/-- The instances process `p` of `P` is responsible for: those whose index is `p` modulo `P`, in
order, each with its index. -/
def share {α : Type*} (P p : ℕ) (items : List α) : List (ℤ × α) :=
  (items.zipIdx.filter fun q => decide (q.2 % P = p)).map fun q => ((q.2 : ℤ), q.1)

/-- Truth of a literal. -/
def litTrue (σ : ℕ → Bool) (l : ℤ) : Bool := if 0 < l then σ l.natAbs else !σ l.natAbs

/-- A clause is satisfied when one of its literals is true. -/
def clauseSat (σ : ℕ → Bool) (c : List ℤ) : Bool := c.any (litTrue σ)

/-- Number of satisfied clauses. -/
def numSat (σ : ℕ → Bool) (clauses : List (List ℤ)) : ℕ := clauses.countP (clauseSat σ)

/-- A 3-CNF over variables `1..nv`; empty clauses allowed. -/
def Is3CNF (nv : ℕ) (clauses : List (List ℤ)) : Prop :=
  ∀ c ∈ clauses, c = [] ∨ (c.length = 3 ∧ ∀ l ∈ c, l ≠ 0 ∧ l.natAbs ≤ nv)

/-- Nodes of the graph with the given edges (`nx.from_edgelist`). -/
def IsNode (edges : List (ℕ × ℕ)) (v : ℕ) : Prop := ∃ e ∈ edges, v = e.1 ∨ v = e.2

/-- Independent sets of nodes. -/
def IsIndepNodes (edges : List (ℕ × ℕ)) (S : Finset ℕ) : Prop :=
  (∀ v ∈ S, IsNode edges v) ∧ ∀ e ∈ edges, ¬ (e.1 ∈ S ∧ e.2 ∈ S)

/-- The textual form of a list of settings: `k1-v1,k2-v2,…`. -/
def renderCfg (kvs : List (List Char × List Char)) : List Char :=
  [','].intercalate (kvs.map fun kv => kv.1 ++ '-' :: kv.2)

end Discs.Spec

namespace Discs

open Spec

/-! ### C43 -/

theorem scanBatches_spec {α : Type*} (P p : ℕ) {B : ℕ} (hB : 0 < B) (xs : List α) :
    ∀ (idx : ℕ) (buffer : List (ℤ × α)), buffer.length < B →
      (scanBatches P p B idx buffer xs).1.flatten ++ (scanBatches P p B idx buffer xs).2 =
        buffer ++ ((xs.zipIdx idx).filter fun q => decide (q.2 % P = p)).map
          (fun q => ((q.2 : ℤ), q.1)) ∧
      (∀ b ∈ (scanBatches P p B idx buffer xs).1, b.length = B) ∧
      (scanBatches P p B idx buffer xs).2.length < B := by
  induction xs with
  | nil => intro idx buffer h; simp [scanBatches, h]
  | cons x xs ih =>
    intro idx buffer h
    rw [List.zipIdx_cons, List.filter_cons]
    by_cases hi : idx % P = p
    · simp only [scanBatches, hi, if_true, decide_true]
      split_ifs with hl
      · obtain ⟨h1, h2, h3⟩ := ih (idx + 1) [] hB
        refine ⟨?_, ?_, h3⟩
        · rw [List.flatten_cons, List.append_assoc, h1]; simp
        · intro b hb
          rcases List.mem_cons.1 hb with rfl | hb
          · exact hl
          · exact h2 b hb
      · obtain ⟨h1, h2, h3⟩ := ih (idx + 1) (buffer ++ [((idx : ℤ), x)]) (by
          simp only [List.length_append, List.length_singleton] at hl ⊢; omega)
        refine ⟨?_, h2, h3⟩
        rw [h1]; simp
    · simp only [scanBatches, hi, if_false, decide_false, Bool.false_eq_true]
      exact ih (idx + 1) buffer h

theorem padBatches_spec {α : Type*} {B : ℕ} (dummy : α) (k : ℕ) :
    ∀ buffer : List (ℤ × α), buffer.length ≤ B → (k = 0 → buffer = []) →
      (padBatches B dummy k buffer).flatten =
        buffer ++ List.replicate (k * B - buffer.length) ((-1 : ℤ), dummy) ∧
      (∀ b ∈ padBatches B dummy k buffer, b.length = B) ∧ (padBatches B dummy k buffer).length = k := by
  induction k with
  | zero => intro buffer _ h0; simp [padBatches, h0 rfl]
  | succ k ih =>
    intro buffer hl _
    obtain ⟨h1, h2, h3⟩ := ih [] (Nat.zero_le _) fun _ => rfl
    refine ⟨?_, ?_, ?_⟩
    · rw [padBatches, List.flatten_cons, h1, List.append_assoc]
      congr 1
      rw [List.nil_append, List.length_nil, Nat.sub_zero, List.replicate_append_replicate]
      congr 1
      rw [Nat.succ_mul]; omega
    · intro b hb
      rw [padBatches] at hb
      rcases List.mem_cons.1 hb with rfl | hb
      · simp; omega
      · exact h2 b hb
    · rw [padBatches, List.length_cons, h3]

theorem share_length_le {α : Type*} {P p K : ℕ} (items : List α)
    (h : items.length ≤ K * P) : (share P p items).length ≤ K := by
  unfold share
  rw [List.length_map]
  have h1 : ((items.zipIdx.filter fun q => decide (q.2 % P = p)).map Prod.snd) =
      (List.range items.length).filter fun i => decide (i % P = p) := by
    have : (items.zipIdx.map Prod.snd) = List.range items.length := by
      rw [List.zipIdx_map_snd]; simp [List.range_eq_range']
    rw [← this, List.filter_map]
    rfl
  have h2 := congrArg List.length h1
  rw [List.length_map] at h2
  rw [h2, ← List.toFinset_card_of_nodup (List.Nodup.filter _ List.nodup_range)]
  have h3 : ((List.range items.length).filter fun i => decide (i % P = p)).toFinset.card ≤
      (Finset.range K).card := by
    refine Finset.card_le_card_of_injOn (fun i => i / P) ?_ ?_
    · intro i hi
      simp only [Finset.mem_coe, List.mem_toFinset, List.mem_filter, List.mem_range] at hi
      simp only [Finset.coe_range, Set.mem_Iio]
      exact Nat.div_lt_of_lt_mul (by rw [mul_comm]; omega)
    · intro i hi j hj hij
      simp only [Finset.mem_coe, List.mem_toFinset, List.mem_filter, List.mem_range,
        decide_eq_true_eq] at hi hj hij
      rw [← Nat.div_add_mod i P, ← Nat.div_add_mod j P, hij, hi.2, hj.2]
  simpa using h3

theorem totalBatches_eq (n : ℕ) {b : ℕ} (hb : 0 < b) : totalBatches n b = (n + b - 1) / b := by
  unfold totalBatches
  have h := Nat.div_add_mod n b
  have hlt := Nat.mod_lt n hb
  split_ifs with h0
  · symm
    rw [Nat.div_eq_iff hb]
    constructor
    · have : (n / b + 1) * b = b * (n / b) + b := by ring
      omega
    · have : (n / b + 1) * b = b * (n / b) + b := by ring
      omega
  · symm
    rw [Nat.div_eq_iff hb]
    have : n / b * b = b * (n / b) := by ring
    constructor <;> omega

/-- **C43.** For every number of processes `P`, process `p`, local batch size `B` and declared
number of instances not below the real one, the iterator of process `p` yields exactly
`⌈numInstances / (P·B)⌉` batches (the same for all processes), each of exactly `B` entries, and
their concatenation is the share of process `p`, in order and with the right indices, followed only
by dummies marked `-1`. -/
theorem graph_batches {α : Type*} {P p B n : ℕ} (hP : 0 < P) (hB : 0 < B) (dummy : α)
    (items : List α) (hn : items.length ≤ n) :
    ∃ bs, getIterator P p (P * B) n dummy items = some bs ∧
      bs.length = (n + P * B - 1) / (P * B) ∧ (∀ b ∈ bs, b.length = B) ∧
      ∃ k, bs.flatten = share P p items ++ List.replicate k ((-1 : ℤ), dummy) := by
  have hPB : 0 < P * B := Nat.mul_pos hP hB
  have hdiv : P * B / P = B := Nat.mul_div_cancel_left B hP
  obtain ⟨h1, h2, h3⟩ := scanBatches_spec P p hB items 0 [] hB
  have hT : n ≤ totalBatches n (P * B) * (P * B) := by
    unfold totalBatches
    have h := Nat.div_add_mod n (P * B)
    have hlt := Nat.mod_lt n hPB
    split_ifs with h0
    · have : (n / (P * B) + 1) * (P * B) = P * B * (n / (P * B)) + P * B := by ring
      omega
    · have : n / (P * B) * (P * B) = P * B * (n / (P * B)) := by ring
      omega
  have hs : (share P p items).length ≤ totalBatches n (P * B) * B := by
    refine share_length_le items (hn.trans (hT.trans (le_of_eq ?_)))
    ring
  have hsh : (scanBatches P p B 0 [] items).1.flatten ++ (scanBatches P p B 0 [] items).2 =
      share P p items := by rw [h1]; rfl
  have hlen : (scanBatches P p B 0 [] items).1.length * B + (scanBatches P p B 0 [] items).2.length =
      (share P p items).length := by
    rw [← hsh, List.length_append, List.length_flatten]
    congr 1
    rw [List.map_congr_left (g := fun _ => B) h2]
    simp
  set r := scanBatches P p B 0 [] items with hr
  have hle : r.1.length ≤ totalBatches n (P * B) := by
    by_contra hlt
    have : (totalBatches n (P * B) + 1) * B ≤ r.1.length * B := Nat.mul_le_mul_right B (by omega)
    have e : (totalBatches n (P * B) + 1) * B = totalBatches n (P * B) * B + B := by ring
    omega
  have h0 : totalBatches n (P * B) - r.1.length = 0 → r.2 = [] := by
    intro hz
    have he : r.1.length = totalBatches n (P * B) := by omega
    rw [he] at hlen
    exact List.length_eq_zero_iff.1 (by omega)
  obtain ⟨g1, g2, g3⟩ := padBatches_spec dummy (totalBatches n (P * B) - r.1.length) r.2 h3.le h0
  refine ⟨r.1 ++ padBatches B dummy (totalBatches n (P * B) - r.1.length) r.2, ?_, ?_, ?_,
    (totalBatches n (P * B) - r.1.length) * B - r.2.length, ?_⟩
  · unfold getIterator
    rw [if_pos ⟨Nat.mul_mod_right P B, hPB.ne'⟩, hdiv]
  · rw [List.length_append, g3, ← totalBatches_eq n hPB]; omega
  · intro b hb
    rcases List.mem_append.1 hb with hb | hb
    · exact h2 b hb
    · exact g2 b hb
  · rw [List.flatten_append, g1, ← List.append_assoc, hsh]

/-- **C43 (coverage).** Over all processes every instance appears exactly once, with its own index:
only in the share of process `i mod P`, and the indices in a share are strictly increasing. -/
theorem share_partition {α : Type*} (P : ℕ) (items : List α) :
    (∀ (i : ℕ) (h : i < items.length) (p : ℕ), ((i : ℤ), items[i]) ∈ share P p items ↔ p = i % P) ∧
    (∀ p, ∀ q ∈ share P p items, ∃ (i : ℕ) (h : i < items.length), q = ((i : ℤ), items[i])) ∧
    ∀ p, (share P p items).Pairwise fun a b => a.1 < b.1 := by
  have hmem : ∀ p q, q ∈ share P p items ↔
      ∃ (i : ℕ) (h : i < items.length), i % P = p ∧ q = ((i : ℤ), items[i]) := by
    intro p q
    unfold share
    simp only [List.mem_map, List.mem_filter, decide_eq_true_eq, List.mem_zipIdx_iff_getElem?,
      Prod.exists]
    constructor
    · rintro ⟨a, i, ⟨h1, h2⟩, rfl⟩
      obtain ⟨h3, h4⟩ := List.getElem?_eq_some_iff.1 h1
      exact ⟨i, h3, h2, by rw [h4]⟩
    · rintro ⟨i, h, h1, rfl⟩
      exact ⟨items[i], i, ⟨List.getElem?_eq_getElem h, h1⟩, rfl⟩
  refine ⟨?_, ?_, ?_⟩
  · intro i h p
    rw [hmem]
    constructor
    · rintro ⟨j, hj, h1, h2⟩
      have : i = j := Int.ofNat.inj (congrArg Prod.fst h2)
      subst this; exact h1.symm
    · rintro rfl; exact ⟨i, h, rfl, rfl⟩
  · intro p q hq
    obtain ⟨i, h, -, h2⟩ := (hmem p q).1 hq
    exact ⟨i, h, h2⟩
  · intro p
    unfold share
    rw [List.pairwise_map]
    refine List.Pairwise.filter _ ?_
    have h1 : (items.zipIdx.map Prod.snd).Pairwise (· < ·) := by
      rw [List.zipIdx_map_snd]; exact List.pairwise_lt_range'
    rw [List.pairwise_map] at h1
    exact h1.imp fun h => Int.ofNat_lt.2 h

/-- When fewer instances are declared (`model_config.num_instances`) than the files hold, the last
partial batch is silently lost: here the third instance is never yielded. -/
theorem graph_batches_lost {α : Type*} (d a b c : α) :
    getIterator 1 0 2 2 d [a, b, c] = some [[(0, a), (1, b)]] := by
  simp [getIterator, scanBatches, padBatches, totalBatches]

/-- Concrete case: 3 instances, 2 processes, local batch 1. -/
example : getIterator 2 1 2 3 'd' ['a', 'b', 'c'] = some [[(1, 'b')], [(-1, 'd')]] := by decide

/-! ### C64: one array size for all instances -/

/-- **C64.** After scanning, the padded length of every instance's edge arrays is the same number,
every node label fits, and the instance count is right. -/
theorem scan_uniform (gs : List (ℕ × ℕ)) :
    (scanSizes gs).2.2 = gs.length ∧
    ∀ g ∈ gs, g.1 ≤ (scanSizes gs).1 ∧ paddedLen g.2 (scanSizes gs).2.1 = (scanSizes gs).2.1 := by
  have key : ∀ (gs : List (ℕ × ℕ)) (st : ℕ × ℕ × ℕ),
      let r := gs.foldl (fun st g => (max st.1 g.1, max st.2.1 g.2, st.2.2 + 1)) st
      r.2.2 = st.2.2 + gs.length ∧ st.1 ≤ r.1 ∧ st.2.1 ≤ r.2.1 ∧
        ∀ g ∈ gs, g.1 ≤ r.1 ∧ g.2 ≤ r.2.1 := by
    intro gs
    induction gs with
    | nil => intro st; simp
    | cons g gs ih =>
      intro st
      obtain ⟨h1, h2, h3, h4⟩ := ih (max st.1 g.1, max st.2.1 g.2, st.2.2 + 1)
      simp only [List.foldl_cons] at h1 h2 h3 h4 ⊢
      refine ⟨by rw [h1, List.length_cons]; omega, le_trans (le_max_left _ _) h2,
        le_trans (le_max_left _ _) h3, ?_⟩
      intro g' hg'
      rcases List.mem_cons.1 hg' with rfl | hg'
      · exact ⟨le_trans (le_max_right _ _) h2, le_trans (le_max_right _ _) h3⟩
      · exact h4 g' hg'
  obtain ⟨h1, -, -, h4⟩ := key gs (0, 0, 0)
  refine ⟨by simpa [scanSizes] using h1, fun g hg => ⟨(h4 g hg).1, ?_⟩⟩
  have h5 : g.2 ≤ (scanSizes gs).2.1 := (h4 g hg).2
  unfold paddedLen
  split_ifs with h <;> omega

/-- A configured edge maximum below an instance's number of edges gives arrays of another length
(so the batch cannot be stacked). -/
theorem configured_too_small {e m : ℕ} (h : m < e) : paddedLen e m ≠ m := by
  unfold paddedLen; split_ifs <;> omega

/-! ### C65: relabelling of the connected component -/

theorem idxMap_eq (nodes : List ℕ) : idxMap nodes = nodes.zipIdx := by
  have : ∀ (l : List ℕ) (acc : List (ℕ × ℕ)),
      l.foldl (fun m idx => m ++ [(idx, m.length)]) acc = acc ++ l.zipIdx acc.length := by
    intro l
    induction l with
    | nil => intro acc; simp
    | cons a l ih =>
      intro acc
      rw [List.foldl_cons, ih, List.zipIdx_cons]
      simp
  unfold idxMap
  rw [this]; simp

theorem idxLookup_getElem {nodes : List ℕ} (hn : nodes.Nodup) {i : ℕ} (h : i < nodes.length) :
    idxLookup (idxMap nodes) nodes[i] = some i := by
  unfold idxLookup
  rw [idxMap_eq]
  have : nodes.zipIdx.find? (fun p => decide (p.1 = nodes[i])) = some (nodes[i], i) := by
    rw [List.find?_eq_some_iff_getElem]
    refine ⟨by simp, i, by simpa using h, by simp, fun j hj => ?_⟩
    simp only [List.getElem_zipIdx, Bool.not_eq_true', decide_eq_false_iff_not]
    intro he
    exact hj.ne ((List.Nodup.getElem_inj_iff hn).1 he)
  rw [this]; rfl

/-- **C65.** For a component with distinct nodes, all of whose edges join its nodes, relabelling
never fails and is an isomorphism onto the graph on `0..n-1`: new edge `k` joins the positions of the
endpoints of old edge `k`. -/
theorem relabel_isomorphism {nodes : List ℕ} (hn : nodes.Nodup) {edges : List (ℕ × ℕ)}
    (he : ∀ e ∈ edges, e.1 ∈ nodes ∧ e.2 ∈ nodes) :
    ∃ out, relabel nodes edges = some out ∧
      List.Forall₂ (fun e e' => nodes[e'.1]? = some e.1 ∧ nodes[e'.2]? = some e.2) edges out := by
  unfold relabel
  induction edges with
  | nil => exact ⟨[], rfl, List.Forall₂.nil⟩
  | cons e es ih =>
    obtain ⟨out, h1, h2⟩ := ih fun e' h' => he e' (List.mem_cons_of_mem _ h')
    obtain ⟨ha, hb⟩ := he e List.mem_cons_self
    obtain ⟨i, hi, hia⟩ := List.getElem_of_mem ha
    obtain ⟨j, hj, hjb⟩ := List.getElem_of_mem hb
    refine ⟨(i, j) :: out, ?_, List.Forall₂.cons ⟨?_, ?_⟩ h2⟩
    · rw [List.mapM_cons, h1, ← hia, ← hjb, idxLookup_getElem hn hi, idxLookup_getElem hn hj]
      rfl
    · rw [List.getElem?_eq_getElem hi, hia]
    · rw [List.getElem?_eq_getElem hj, hjb]

/-- **C65 (no relabelling needed).** The test `max_idx != number_of_nodes - 1` (`common.py:45`) is
right: if the largest of `n` distinct labels is at most `n - 1`, the labels are exactly `0..n-1`. -/
theorem relabel_skip {nodes : List ℕ} (hn : nodes.Nodup) (hm : ∀ v ∈ nodes, v ≤ nodes.length - 1)
    (v : ℕ) : v ∈ nodes ↔ v < nodes.length := by
  have hsub : nodes.toFinset ⊆ Finset.range nodes.length := by
    intro a ha
    have h1 := List.mem_toFinset.1 ha
    have h2 := hm a h1
    have h3 := List.length_pos_of_mem h1
    rw [Finset.mem_range]; omega
  have heq := Finset.eq_of_subset_of_card_le hsub (by
    rw [Finset.card_range, List.toFinset_card_of_nodup hn])
  rw [← List.mem_toFinset, heq, Finset.mem_range]

/-- Concrete case: component {2, 5, 7}. -/
example : relabel [2, 5, 7] [(2, 7), (5, 7)] = some [(0, 2), (1, 2)] := by decide

/-! ### C46 -/

theorem parseKV_render {k v : List Char} (hk : '-' ∉ k) : parseKV (k ++ '-' :: v) = (k, v) := by
  unfold parseKV
  have h : (k ++ '-' :: v).splitOn '-' = k :: v.splitOn '-' := by
    rw [List.splitOn_append_cons_self, List.splitOn_eq_singleton hk]; rfl
  simp only [h, List.headD_cons, List.tail_cons, List.intercalate_splitOn]

theorem dictGet_set {K V : Type*} [DecidableEq K] (d : List (K × V)) (k : K) (v : V) (k' : K) :
    dictGet (dictSet d k v) k' = if k' = k then some v else dictGet d k' := by
  unfold dictSet dictGet
  split_ifs with h1 h2 h2
  · subst h2
    induction d with
    | nil => simp at h1
    | cons p d ih =>
      by_cases hp : p.1 = k'
      · simp [hp]
      · simp only [List.map_cons, hp, if_false, List.find?_cons, decide_false]
        refine ih ?_
        simpa [hp] using h1
  · clear h1
    induction d with
    | nil => rfl
    | cons p d ih =>
      by_cases hp : p.1 = k
      · have : ¬ k = k' := fun h => h2 h.symm
        simp only [List.map_cons, hp, if_true, List.find?_cons, this, decide_false]
        exact ih
      · by_cases hq : p.1 = k'
        · subst hq
          simp [hp]
        · simp only [List.map_cons, hp, if_false, List.find?_cons, hq, decide_false]
          exact ih
  · subst h2
    rw [List.find?_append]
    have : d.find? (fun p => decide (p.1 = k')) = none := by
      rw [List.find?_eq_none]
      intro p hp hpk
      exact h1 (List.any_eq_true.2 ⟨p, hp, hpk⟩)
    rw [this]; simp
  · rw [List.find?_append]
    have : [(k, v)].find? (fun p : K × V => decide (p.1 = k')) = none := by
      have : ¬ k = k' := fun h => h2 h.symm
      simp [this]
    rw [this, Option.or_none]

/-- **C46.** Parsing a rendered non-empty list of settings, with keys free of `-` and `,` and values
free of `,`, looks every key up to its last value. -/
theorem parseCfg_render {kvs : List (List Char × List Char)} (hne : kvs ≠ [])
    (hk : ∀ kv ∈ kvs, '-' ∉ kv.1 ∧ ',' ∉ kv.1 ∧ ',' ∉ kv.2) (k : List Char) :
    dictGet (parseCfg (renderCfg kvs)) k = (kvs.reverse.find? fun kv => kv.1 = k).map (·.2) := by
  unfold parseCfg renderCfg
  rw [List.splitOn_intercalate]
  · have hfold : ∀ (l : List (List Char × List Char)) (d : List (List Char × List Char)),
        (∀ kv ∈ l, '-' ∉ kv.1 ∧ ',' ∉ kv.1 ∧ ',' ∉ kv.2) →
        dictGet ((l.map fun kv => kv.1 ++ '-' :: kv.2).foldl
          (fun d kv => dictSet d (parseKV kv).1 (parseKV kv).2) d) k =
        ((l.reverse.find? fun kv => kv.1 = k).map (·.2)).or (dictGet d k) := by
      intro l
      induction l with
      | nil => intro d _; simp
      | cons kv l ih =>
        intro d h
        rw [List.map_cons, List.foldl_cons, ih _ fun kv' h' => h kv' (List.mem_cons_of_mem _ h')]
        rw [parseKV_render (h kv List.mem_cons_self).1, dictGet_set, List.reverse_cons,
          List.find?_append]
        by_cases hkk : kv.1 = k
        · subst hkk
          cases List.find? (fun kv' => decide (kv'.1 = kv.1)) l.reverse <;> simp
        · have h2 : ¬ k = kv.1 := fun h => hkk h.symm
          simp [hkk, h2]
    rw [hfold kvs [] hk]
    simp [dictGet]
  · intro l hl
    obtain ⟨kv, hkv, rfl⟩ := List.mem_map.1 hl
    obtain ⟨-, h2, h3⟩ := hk kv hkv
    simp [h2, h3]
  · simpa using hne

/-- **C46 (round trip).** With distinct keys every setting is read back. -/
theorem parseCfg_roundtrip {kvs : List (List Char × List Char)}
    (hk : ∀ kv ∈ kvs, '-' ∉ kv.1 ∧ ',' ∉ kv.1 ∧ ',' ∉ kv.2) (hd : (kvs.map (·.1)).Nodup)
    {kv : List Char × List Char} (h : kv ∈ kvs) :
    dictGet (parseCfg (renderCfg kvs)) kv.1 = some kv.2 := by
  rw [parseCfg_render (List.ne_nil_of_mem h) hk]
  have : kvs.reverse.find? (fun kv' => decide (kv'.1 = kv.1)) = some kv := by
    cases hf : kvs.reverse.find? (fun kv' => decide (kv'.1 = kv.1)) with
    | none =>
      rw [List.find?_eq_none] at hf
      exact absurd (by simp) (hf kv (List.mem_reverse.2 h))
    | some kv' =>
      have h1 := List.mem_reverse.1 (List.mem_of_find?_eq_some hf)
      have h2 := of_decide_eq_true (List.find?_some (p := fun kv' : List Char × List Char => decide (kv'.1 = kv.1)) hf)
      rw [List.inj_on_of_nodup_map hd h1 h h2]
  rw [this]; rfl

/-- The empty configuration string does not give an empty dictionary. -/
theorem parseCfg_empty : parseCfg [] = [([], [])] := by decide

/-- Concrete case: `r-0.5-b,n-10`. -/
example : parseCfg "r-0.5-b,n-10".toList =
    [("r".toList, "0.5-b".toList), ("n".toList, "10".toList)] := by decide

end Discs
