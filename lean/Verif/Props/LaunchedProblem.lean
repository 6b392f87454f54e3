import Verif.Model.ModelSettings
import Verif.Props.Shipped
import Verif.Props.NormCut

/-!
# What the launched combinatorial jobs maximise (C132)

`Props/Comb.lean` shows what maximising the energy means for a given penalty coefficient (C38, C39), `Props/NormCut.lean`
what the normalised-cut energy is for given settings (C61).  Here: the settings that the shipped jobs run with.
-/

namespace Discs
open Spec

/-! ### The section of a graph -/

/-- **C132 (the section of a graph).** Every setting of a graph configuration is found again in the section that is merged
into the configuration of the job; a setting that is not given is absent. -/
theorem graph_section (g : GraphModelCfg) :
    (g.sec .penalty).bind Val.rat? = g.penalty ∧ (g.sec .tolerance).bind Val.rat? = g.tolerance ∧
    (g.sec .num_models).bind Val.nat? = some g.numModels ∧ (g.sec .max_num_nodes).bind Val.nat? = some g.maxNodes ∧
    (g.sec .max_num_edges).bind Val.nat? = some g.maxEdges ∧
    (g.sec .num_categories).bind Val.nat? = some g.numCategories ∧
    (g.sec .num_instances).bind Val.nat? = g.numInstances ∧
    (g.sec .rand_type).bind Val.str? = some (String.ofList g.randType) ∧
    (g.sec .name).bind Val.str? = g.name.map String.ofList ∧ g.sec .shape = some (.tuple [0]) ∧
    (g.penalty = none → g.sec .penalty = none) ∧ (g.tolerance = none → g.sec .tolerance = none) ∧
    (g.numInstances = none → g.sec .num_instances = none) ∧ (g.name = none → g.sec .name = none) := by
  obtain ⟨name, nm, mn, me, ni, nc, rt, p, t⟩ := g
  cases name <;> cases ni <;> cases p <;> cases t <;> simp [GraphModelCfg.sec, Val.rat?, Val.nat?, Val.str?]

/-! ### Penalties of the shipped jobs -/

/-- The penalty coefficient that a shipped job is meant to have: the swept one, and otherwise that of the graph or model
file. -/
def Spec.givenPenalty (rc : RunConfig) (kw : List Arg) : ℚ :=
  match kw.lookup (.model, .penalty) with
  | some v => (v.rat?).getD 0
  | none => if rc.file = "co/mis/satlib_sampler_sweep.py" then 10001 / 10000
    else if rc.model = "mis" then 1001 / 1000
    else if rc.file = "co/normcut/gap_rand_sampler_sweep.py" then 1
    else if rc.model = "normcut" then 5 / 10000
    else if rc.model = "maxclique" then 1 else 2

def penaltyCheck (rc : RunConfig) (kw : List Arg) : Bool :=
  match launch shippedRepo rc "" "" kw with
  | none => true
  | some c => (penaltyCoeff c == givenPenalty rc kw) &&
    (rc.model != "mis" || decide (1 < penaltyCoeff c)) &&
    (rc.model != "maxclique" || decide (penaltyCoeff c = 1)) &&
    (rc.model != "normcut" || (
      decide ((c .model .tolerance) = some (.float (3 / 100))) &&
      decide (c .model .penalty = some (.float (if rc.graphType = some "gap_rand" then 1 else 5 / 10000))) &&
      decide (c .model .stype = some (.str (if kw.lookup (.model, .stype) = some (.str "span") then "span" else "quad"))) && decide (c .model .num_categories = some (.int 3))))

theorem penaltyCheck_all : (shippedSweeps.all fun rc => rc.graphType.isNone || (rc.jobs.getD []).all (penaltyCheck rc))
    = true := by
  decide +kernel

theorem penalty_facts {rc : RunConfig} (hrc : rc ∈ shippedSweeps) (hg : rc.graphType.isSome) {js : List (List Arg)}
    (hj : rc.jobs = some js) {kw : List Arg} (hkw : kw ∈ js) {saveDir folder : String} {c : Cfg Key Val}
    (hc : launch shippedRepo rc saveDir folder kw = some c) :
    penaltyCoeff c = givenPenalty rc kw ∧ (rc.model = "mis" → 1 < penaltyCoeff c) ∧
    (rc.model = "maxclique" → penaltyCoeff c = 1) ∧
    (rc.model = "normcut" → c .model .tolerance = some (.float (3 / 100)) ∧
      c .model .penalty = some (.float (if rc.graphType = some "gap_rand" then 1 else 5 / 10000)) ∧
      c .model .stype = some (.str (if kw.lookup (.model, .stype) = some (.str "span") then "span" else "quad")) ∧
      c .model .num_categories = some (.int 3)) := by
  obtain ⟨c₀, ha, h₀, -⟩ := job_facts hrc hj hkw hc
  have h := List.all_eq_true.1 penaltyCheck_all rc hrc
  rw [hj] at h
  simp only [Option.getD_some, Bool.or_eq_true, Option.isNone_iff_eq_none] at h
  have h := List.all_eq_true.1 (h.resolve_left fun e => by rw [e] at hg; simp at hg) kw hkw
  unfold penaltyCheck at h
  rw [h₀] at h
  have e : penaltyCoeff c = penaltyCoeff c₀ := by
    unfold penaltyCoeff
    rw [ha .model .penalty (by simp)]
  rw [e, ha .model .penalty (by simp), ha .model .tolerance (by simp), ha .model .stype (by simp),
    ha .model .num_categories (by simp)]
  simp only [Bool.and_eq_true, Bool.or_eq_true, bne_iff_ne, beq_iff_eq, decide_eq_true_eq] at h
  tauto

/-- **C132 (penalties).** Every job of every shipped combinatorial sweep that starts runs with the penalty coefficient
swept for it, and otherwise with that of the graph file or of the model file. -/
theorem shipped_penalty {rc : RunConfig} (hrc : rc ∈ shippedSweeps) (hg : rc.graphType.isSome) {js : List (List Arg)}
    (hj : rc.jobs = some js) {kw : List Arg} (hkw : kw ∈ js) {saveDir folder : String} {c : Cfg Key Val}
    (hc : launch shippedRepo rc saveDir folder kw = some c) : penaltyCoeff c = givenPenalty rc kw :=
  (penalty_facts hrc hg hj hkw hc).1

/-! ### Maximum independent set -/

/-- `x` has the highest score of all 0/1 samples. -/
def Spec.Best {N : ℕ} (score : (Fin (N + 1) → ℝ) → ℝ) (x : Fin (N + 1) → ℝ) : Prop :=
  IsBinary x ∧ ∀ y, IsBinary y → score y ≤ score x

/-- **C132 (maximum independent set).** In every job of every shipped sweep for maximum independent set, whatever the
graph, the samples with the highest score are exactly the largest independent sets. -/
theorem shipped_mis_solves {rc : RunConfig} (hrc : rc ∈ shippedSweeps) (hm : rc.model = "mis")
    (hg : rc.graphType.isSome) {js : List (List Arg)} (hj : rc.jobs = some js) {kw : List Arg} (hkw : kw ∈ js)
    {saveDir folder : String} {c : Cfg Key Val} (hc : launch shippedRepo rc saveDir folder kw = some c)
    {N : ℕ} (es : List (Edge N)) (padded n : ℕ) {T : ℝ} (hT : T ≠ 0) {x : Fin (N + 1) → ℝ} (hx : IsBinary x) :
    Best (combEvaluate (misObjective (nodeMask n))
      (misPenalty (graph2edges es padded) (nodeMask n) (penaltyCoeff c)) T) x ↔
    IsIndep es (chosen n x) ∧
      ∀ S : Finset (Fin (N + 1)), (∀ v ∈ S, v.val < n) → IsIndep es S → S.card ≤ (chosen n x).card := by
  have hp := (penalty_facts hrc hg hj hkw hc).2.1 hm
  have hp' : (1 : ℝ) < (penaltyCoeff c : ℝ) := by exact_mod_cast hp
  constructor
  · rintro ⟨-, hb⟩
    have hi := mis_maximiser_indep es padded n hp' hT hx hb
    refine ⟨hi, fun S hS hSi => ?_⟩
    have h := hb _ (indicator_binary S)
    rw [mis_score_indep es padded n _ hT hS hSi, mis_score es padded n _ hT hx, insideCount_eq_zero.2 hi] at h
    simp only [Nat.cast_zero, mul_zero, sub_zero, Nat.cast_le] at h
    exact h
  · rintro ⟨hi, hmax⟩
    refine ⟨hx, fun y hy => ?_⟩
    obtain ⟨S, hS, hSi, hle⟩ := mis_score_le es padded n hp'.le hT hy
    refine hle.trans ?_
    rw [mis_score es padded n _ hT hx, insideCount_eq_zero.2 hi]
    simp only [Nat.cast_zero, mul_zero, sub_zero, Nat.cast_le]
    refine hmax S (fun v hv => ?_) hSi
    have := hS hv
    simp only [chosen, Finset.mem_filter] at this
    exact this.2.1

/-! ### Maximum clique -/

/-- The members of `S` other than `a` that no edge joins to `a`. -/
noncomputable def Spec.strangers {N : ℕ} (es : List (Edge N)) (S : Finset (Fin (N + 1))) (a : Fin (N + 1)) :
    Finset (Fin (N + 1)) :=
  open Classical in S.filter fun b => b ≠ a ∧ ¬ ∃ e ∈ es, s(e.u, e.v) = s(a, b)

theorem mem_missing {N : ℕ} {es : List (Edge N)} {S : Finset (Fin (N + 1))} {a b : Fin (N + 1)} :
    s(a, b) ∈ missing es S ↔ a ∈ S ∧ b ∈ S ∧ a ≠ b ∧ ¬ ∃ e ∈ es, s(e.u, e.v) = s(a, b) := by
  unfold missing
  rw [Finset.mem_sdiff, mem_pairsIn, List.mem_toFinset, List.mem_map]
  tauto

/-- Without `a`, the pairs of `a` are no longer missing. -/
theorem missing_erase {N : ℕ} (es : List (Edge N)) {S : Finset (Fin (N + 1))} {a : Fin (N + 1)} (ha : a ∈ S) :
    (missing es S).card = (missing es (S.erase a)).card + (strangers es S a).card := by
  classical
  have h : missing es S = missing es (S.erase a) ∪ (strangers es S a).image fun b => s(a, b) := by
    ext p
    induction p using Sym2.ind with
    | _ u v =>
      rw [Finset.mem_union, mem_missing, mem_missing, Finset.mem_image, Finset.mem_erase, Finset.mem_erase]
      constructor
      · rintro ⟨hu, hv, huv, hne⟩
        by_cases h1 : u = a
        · subst h1
          exact Or.inr ⟨v, by simp only [strangers, Finset.mem_filter]; exact ⟨hv, huv.symm, hne⟩, rfl⟩
        · by_cases h2 : v = a
          · subst h2
            refine Or.inr ⟨u, ?_, Sym2.eq_swap⟩
            simp only [strangers, Finset.mem_filter]
            exact ⟨hu, huv, by rwa [Sym2.eq_swap]⟩
          · exact Or.inl ⟨⟨h1, hu⟩, ⟨h2, hv⟩, huv, hne⟩
      · rintro (⟨⟨-, hu⟩, ⟨-, hv⟩, huv, hne⟩ | ⟨b, hb, he⟩)
        · exact ⟨hu, hv, huv, hne⟩
        · simp only [strangers, Finset.mem_filter] at hb
          rcases Sym2.eq_iff.1 he with ⟨rfl, rfl⟩ | ⟨rfl, rfl⟩
          · exact ⟨ha, hb.1, hb.2.1.symm, hb.2.2⟩
          · exact ⟨hb.1, ha, hb.2.1, by rw [Sym2.eq_swap]; exact hb.2.2⟩
  rw [h, Finset.card_union_of_disjoint, Finset.card_image_of_injective]
  · intro x y hxy
    rcases Sym2.eq_iff.1 hxy with ⟨-, h⟩ | ⟨h1, h2⟩
    · exact h
    · exact h2.trans h1
  · rw [Finset.disjoint_left]
    intro p hp hq
    obtain ⟨b, -, rfl⟩ := Finset.mem_image.1 hq
    exact (Finset.mem_erase.1 (mem_missing.1 hp).1).1 rfl

/-- **C132 (maximum clique, the score).** In every job of every shipped sweep for maximum clique, whatever the simple
graph, the highest score is the size of the largest clique, and the largest cliques have it. -/
theorem shipped_clique_value {rc : RunConfig} (hrc : rc ∈ shippedSweeps) (hm : rc.model = "maxclique")
    (hg : rc.graphType.isSome) {js : List (List Arg)} (hj : rc.jobs = some js) {kw : List Arg} (hkw : kw ∈ js)
    {saveDir folder : String} {c : Cfg Key Val} (hc : launch shippedRepo rc saveDir folder kw = some c)
    {N : ℕ} {es : List (Edge N)} (hs : Simple es) (padded n : ℕ) {T : ℝ} (hT : T ≠ 0) {x : Fin (N + 1) → ℝ}
    (hx : IsBinary x) {w : ℕ}
    (hw : ∀ S : Finset (Fin (N + 1)), (∀ v ∈ S, v.val < n) → IsClique es S → S.card ≤ w) :
    combEvaluate (misObjective (nodeMask n))
      (cliquePenalty (graph2edges es padded) (nodeMask n) (penaltyCoeff c)) T x ≤ w ∧
    (IsClique es (chosen n x) → (chosen n x).card = w → combEvaluate (misObjective (nodeMask n))
      (cliquePenalty (graph2edges es padded) (nodeMask n) (penaltyCoeff c)) T x = w) := by
  have hp := (penalty_facts hrc hg hj hkw hc).2.2.1 hm
  rw [hp]
  constructor
  · obtain ⟨S, hS, hSc, hle⟩ := clique_score_le hs padded n (by norm_num : (1 : ℝ) ≤ ((1 : ℚ) : ℝ)) hT hx
    refine hle.trans ?_
    have hle : S.card ≤ w := hw S (fun v hv => by
      have := hS hv
      simp only [chosen, Finset.mem_filter] at this
      exact this.2.1) hSc
    exact_mod_cast hle
  · intro hq hcard
    rw [clique_score hs padded n _ hT hx, missing_empty.2 hq, hcard]
    simp

/-- **C132 (maximum clique, the samples; refuted).** The penalty of every shipped job for maximum clique is exactly one, so
that a sample can have the highest score without being a clique.  This happens on a graph exactly if some largest clique
has a neighbour outside that is joined to all but one of its members. -/
theorem shipped_clique_tie {rc : RunConfig} (hrc : rc ∈ shippedSweeps) (hm : rc.model = "maxclique")
    (hg : rc.graphType.isSome) {js : List (List Arg)} (hj : rc.jobs = some js) {kw : List Arg} (hkw : kw ∈ js)
    {saveDir folder : String} {c : Cfg Key Val} (hc : launch shippedRepo rc saveDir folder kw = some c)
    {N : ℕ} {es : List (Edge N)} (hs : Simple es) (padded n : ℕ) {T : ℝ} (hT : T ≠ 0) :
    (∃ x, Best (combEvaluate (misObjective (nodeMask n))
        (cliquePenalty (graph2edges es padded) (nodeMask n) (penaltyCoeff c)) T) x ∧ ¬ IsClique es (chosen n x)) ↔
    ∃ K : Finset (Fin (N + 1)), (∀ v ∈ K, v.val < n) ∧ IsClique es K ∧
      (∀ S : Finset (Fin (N + 1)), (∀ v ∈ S, v.val < n) → IsClique es S → S.card ≤ K.card) ∧
      ∃ v : Fin (N + 1), v.val < n ∧ v ∉ K ∧ (strangers es K v).card = 1 := by
  classical
  have hp := (penalty_facts hrc hg hj hkw hc).2.2.1 hm
  rw [hp]
  have hsc : ∀ {x : Fin (N + 1) → ℝ}, IsBinary x → combEvaluate (misObjective (nodeMask n))
      (cliquePenalty (graph2edges es padded) (nodeMask n) ((1 : ℚ) : ℝ)) T x =
        (chosen n x).card - (missing es (chosen n x)).card := by
    intro x hx
    rw [clique_score hs padded n _ hT hx]
    push_cast
    ring
  have hlt : ∀ {x : Fin (N + 1) → ℝ}, ∀ v ∈ chosen n x, v.val < n := by
    intro x v hv
    simp only [chosen, Finset.mem_filter] at hv
    exact hv.2.1
  constructor
  · rintro ⟨x, ⟨hx, hb⟩, hnc⟩
    -- the score of a set of real nodes
    have hset : ∀ S : Finset (Fin (N + 1)), (∀ v ∈ S, v.val < n) →
        S.card + (missing es (chosen n x)).card ≤ (chosen n x).card + (missing es S).card := by
      intro S hS
      have h := hb _ (indicator_binary S)
      rw [hsc (indicator_binary S), hsc hx, chosen_indicator hS] at h
      have h' : (S.card : ℝ) + (missing es (chosen n x)).card ≤ (chosen n x).card + (missing es S).card := by linarith
      exact_mod_cast h'
    have hpos : 0 < (missing es (chosen n x)).card := by
      rcases Nat.eq_zero_or_pos (missing es (chosen n x)).card with h0 | h0
      · exact absurd (missing_empty.1 (Finset.card_eq_zero.1 h0)) hnc
      · exact h0
    obtain ⟨Q, hQ, hQc, hQcard⟩ := exists_clique es (chosen n x)
    have hQm : (missing es Q).card = 0 := by rw [missing_empty.2 hQc]; rfl
    have hQe := hset Q fun v hv => hlt v (hQ hv)
    obtain ⟨w, hw⟩ : ∃ w, (chosen n x).card = w + (missing es (chosen n x)).card := ⟨Q.card, by omega⟩
    -- thin out inside the chosen nodes
    have key : ∀ (k : ℕ) (S : Finset (Fin (N + 1))), S ⊆ chosen n x → (missing es S).card = k + 1 →
        S.card = w + (missing es S).card → ∃ S' ⊆ chosen n x, (missing es S').card = 1 ∧ S'.card = w + 1 := by
      intro k
      induction k with
      | zero => intro S h0 h1 h2; exact ⟨S, h0, h1, by omega⟩
      | succ k ih =>
        intro S h0 h1 h2
        obtain ⟨p, hp⟩ : (missing es S).Nonempty := Finset.card_pos.1 (by omega)
        induction p using Sym2.ind with
        | _ a b =>
          have hm := mem_missing.1 hp
          have he := missing_erase es hm.1
          have hpos : 0 < (strangers es S a).card := Finset.card_pos.2 ⟨b, by
            simp only [strangers, Finset.mem_filter]
            exact ⟨hm.2.1, hm.2.2.1.symm, hm.2.2.2⟩⟩
          have hc := Finset.card_erase_add_one hm.1
          have hle := hset (S.erase a) fun v hv => hlt v (h0 (Finset.mem_of_mem_erase hv))
          exact ih (S.erase a) ((Finset.erase_subset _ _).trans h0) (by omega) (by omega)
    obtain ⟨S, hS, h1, h2⟩ := key ((missing es (chosen n x)).card - 1) (chosen n x) subset_rfl (by omega) hw
    obtain ⟨p, hp⟩ : (missing es S).Nonempty := Finset.card_pos.1 (by omega)
    induction p using Sym2.ind with
    | _ a b =>
      have hm := mem_missing.1 hp
      have he := missing_erase es hm.1
      have hpos : 0 < (strangers es S a).card := Finset.card_pos.2 ⟨b, by
        simp only [strangers, Finset.mem_filter]
        exact ⟨hm.2.1, hm.2.2.1.symm, hm.2.2.2⟩⟩
      have hc := Finset.card_erase_add_one hm.1
      have hstr : strangers es (S.erase a) a = strangers es S a := by
        ext v
        simp only [strangers, Finset.mem_filter, Finset.mem_erase]
        tauto
      refine ⟨S.erase a, fun v hv => hlt v (hS (Finset.mem_of_mem_erase hv)),
        missing_empty.1 (Finset.card_eq_zero.1 (by omega)), fun S' hS' hc' => ?_, a, hlt a (hS hm.1),
        Finset.notMem_erase a S, by rw [hstr]; omega⟩
      have h3 := hset S' hS'
      rw [missing_empty.2 hc', Finset.card_empty] at h3
      omega
  · rintro ⟨K, hK, hKc, hmax, v, hv, hvK, hst⟩
    have hin : ∀ u ∈ insert v K, u.val < n := by
      intro u hu
      rcases Finset.mem_insert.1 hu with rfl | hu
      · exact hv
      · exact hK u hu
    have hstr : strangers es (insert v K) v = strangers es K v := by
      ext u
      simp only [strangers, Finset.mem_filter, Finset.mem_insert]
      tauto
    have he := missing_erase es (Finset.mem_insert_self v K)
    rw [Finset.erase_insert hvK, missing_empty.2 hKc, Finset.card_empty, hstr, hst] at he
    have hcard := Finset.card_insert_of_notMem hvK
    refine ⟨indicator (insert v K), ⟨indicator_binary _, fun y hy => ?_⟩, ?_⟩
    · rw [hsc (indicator_binary _), chosen_indicator hin, he, hcard]
      obtain ⟨S, hS, hSc, hle⟩ := clique_score_le hs padded n (by norm_num : (1 : ℝ) ≤ ((1 : ℚ) : ℝ)) hT hy
      refine hle.trans ?_
      have := hmax S (fun v hv => hlt v (hS hv)) hSc
      have h' : (S.card : ℝ) ≤ K.card := by exact_mod_cast this
      push_cast
      linarith
    · rw [chosen_indicator hin, ← missing_empty]
      intro h0
      rw [h0, Finset.card_empty] at he
      omega

/-- **C132 (maximum clique, refuted).** In every shipped job for maximum clique: on the path with three nodes and two edges
all three nodes together have the highest score, and are not a clique. -/
theorem shipped_clique_not_solved {rc : RunConfig} (hrc : rc ∈ shippedSweeps) (hm : rc.model = "maxclique")
    (hg : rc.graphType.isSome) {js : List (List Arg)} (hj : rc.jobs = some js) {kw : List Arg} (hkw : kw ∈ js)
    {saveDir folder : String} {c : Cfg Key Val} (hc : launch shippedRepo rc saveDir folder kw = some c) :
    ∃ (es : List (Edge 2)) (x : Fin 3 → ℝ), Simple es ∧ EdgesBelow 3 es ∧
      (∀ padded T, T ≠ 0 → Best (combEvaluate (misObjective (nodeMask 3))
        (cliquePenalty (graph2edges es padded) (nodeMask 3) (penaltyCoeff c)) T) x) ∧
      ¬ IsClique es (chosen 3 x) := by
  classical
  have hp := (penalty_facts hrc hg hj hkw hc).2.2.1 hm
  have hs : Simple ([⟨0, 1, 1⟩, ⟨1, 2, 1⟩] : List (Edge 2)) := by
    refine ⟨?_, ?_⟩
    · unfold Loopless; simp
    · simp only [List.map_cons, List.map_nil]; decide
  have hb : ∀ v ∈ (Finset.univ : Finset (Fin 3)), v.val < 3 := fun v _ => v.2
  have hmiss : ∀ S : Finset (Fin 3), 0 ∈ S → 2 ∈ S →
      (missing ([⟨0, 1, 1⟩, ⟨1, 2, 1⟩] : List (Edge 2)) S).card ≥ 1 := by
    intro S h0 h2
    refine Finset.card_pos.2 ⟨s(0, 2), mem_missing.2 ⟨h0, h2, by decide, ?_⟩⟩
    simp only [List.mem_cons, List.not_mem_nil, or_false, exists_eq_or_imp, exists_eq_left]
    decide
  have hone : (missing ([⟨0, 1, 1⟩, ⟨1, 2, 1⟩] : List (Edge 2)) Finset.univ).card ≤ 1 := by
    refine Finset.card_le_one_iff_subset_singleton.2 ⟨s(0, 2), fun p hpm => ?_⟩
    induction p using Sym2.ind with
    | _ a b =>
      have h := (mem_missing.1 hpm).2.2
      simp only [List.mem_cons, List.not_mem_nil, or_false, exists_eq_or_imp, exists_eq_left] at h
      rw [Finset.mem_singleton]
      revert h a b
      decide
  refine ⟨[⟨0, 1, 1⟩, ⟨1, 2, 1⟩], indicator Finset.univ, hs, ?_, fun padded T hT => ⟨indicator_binary _, fun y hy => ?_⟩, ?_⟩
  · unfold EdgesBelow; simp
  · rw [hp, clique_score hs padded 3 _ hT hy, clique_score hs padded 3 _ hT (indicator_binary _), chosen_indicator hb]
    have h1 : (((missing ([⟨0, 1, 1⟩, ⟨1, 2, 1⟩] : List (Edge 2)) Finset.univ).card : ℕ) : ℝ) ≤ 1 := by
      exact_mod_cast hone
    have h2 : ((chosen 3 y).card : ℝ) ≤ 2 + (missing ([⟨0, 1, 1⟩, ⟨1, 2, 1⟩] : List (Edge 2)) (chosen 3 y)).card := by
      have h3 : (chosen 3 y).card ≤ 3 := by simpa using Finset.card_le_univ (chosen 3 y)
      by_cases hh : 0 ∈ chosen 3 y ∧ 2 ∈ chosen 3 y
      · have := hmiss _ hh.1 hh.2
        have h4 : (chosen 3 y).card ≤ 2 + (missing ([⟨0, 1, 1⟩, ⟨1, 2, 1⟩] : List (Edge 2)) (chosen 3 y)).card := by omega
        exact_mod_cast h4
      · have h5 : (chosen 3 y).card ≠ 3 := fun h => by
          have : chosen 3 y = Finset.univ := Finset.eq_univ_of_card _ (by simpa using h)
          exact hh (by rw [this]; simp)
        have h4 : (chosen 3 y).card ≤ 2 + (missing ([⟨0, 1, 1⟩, ⟨1, 2, 1⟩] : List (Edge 2)) (chosen 3 y)).card := by omega
        exact_mod_cast h4
    have h6 : ((Finset.univ : Finset (Fin (2 + 1))).card : ℝ) = 3 := by simp
    rw [h6]
    push_cast
    linarith
  · rw [chosen_indicator hb, ← missing_empty]
    intro h0
    have := hmiss Finset.univ (by simp) (by simp)
    rw [h0] at this
    simp at this

/-- The sweeps are not empty: for each problem a sweep with a job that starts. -/
example : (["mis", "maxclique", "normcut"].all fun m => shippedSweeps.any fun rc => rc.model == m &&
    rc.graphType.isSome && (rc.jobs.getD []).any fun kw => (launch shippedRepo rc "" "" kw).isSome) = true := by
  decide +kernel

/-- A swept penalty and a penalty of the graph file. -/
example : (shippedSweeps.any fun rc => rc.model == "mis" && (rc.jobs.getD []).any fun kw =>
    givenPenalty rc kw == 11 / 10) && (shippedSweeps.any fun rc => rc.model == "mis" && (rc.jobs.getD []).any fun kw =>
    givenPenalty rc kw == 10001 / 10000) = true := by decide +kernel

/-! ### Normalised cut -/

/-- The cost of a partition in three groups: twice the number of cut edges and `penalty` times the deviation of the sizes
of the groups from a third of the nodes, squared (`quad`) or squared after `tol` nodes are allowed for free. -/
noncomputable def Spec.cutCost {N : ℕ} (quad : Bool) (penalty tol : ℝ) (es : List (Edge N))
    (z : Fin (N + 1) → Fin 3) : ℝ :=
  2 * cutEdges es z + penalty * ∑ g, bif quad then ((partSize z g : ℝ) - (N + 1 : ℕ) / 3) ^ 2
    else max (|(partSize z g : ℝ) - (N + 1 : ℕ) / 3| - tol) 0 ^ 2

/-- **C132 (normalised cut).** Every job of every shipped sweep for normalised cut builds its model, but has a positive
penalty: the energy is minus the number of cut edges, counted twice, minus a charge for unequal groups.  The normalised
cut, which divides by the degrees in a group, is not what is minimised. -/
theorem shipped_normcut_cost {rc : RunConfig} (hrc : rc ∈ shippedSweeps) (hm : rc.model = "normcut")
    (hg : rc.graphType.isSome) {js : List (List Arg)} (hj : rc.jobs = some js) {kw : List Arg} (hkw : kw ∈ js)
    {saveDir folder : String} {c : Cfg Key Val} (hc : launch shippedRepo rc saveDir folder kw = some c) (N : ℕ) :
    ∃ s quad, ncSettings c (N + 1) 3 = some s ∧
      (quad = true ↔ kw.lookup (.model, .stype) ≠ some (.str "span")) ∧
      ∀ (es : List (Edge N)) (padded : ℕ) (deg : Fin (N + 1) → ℝ) (z : Fin (N + 1) → Fin 3),
        ncObjective s (graph2edges es padded) deg (ncOneHot z) =
          -cutCost quad (if rc.graphType = some "gap_rand" then 1 else 5 / 10000) ((N + 1 : ℕ) * (3 / 100)) es z := by
  obtain ⟨ht, hp, hst, -⟩ := (penalty_facts hrc hg hj hkw hc).2.2.2 hm
  set p : ℚ := if rc.graphType = some "gap_rand" then 1 else 5 / 10000 with hpd
  have hp0 : 0 < p := by rw [hpd]; split <;> norm_num
  have hpr : ((p : ℚ) : ℝ) = if rc.graphType = some "gap_rand" then 1 else 5 / 10000 := by
    rw [hpd]; split <;> norm_num
  have hpr0 : (0 : ℝ) < (p : ℝ) := by exact_mod_cast hp0
  have h3 : (((3 / 100 : ℚ)) : ℝ) = 3 / 100 := by norm_num
  refine ⟨{ penalty := (p : ℝ), quad := decide (kw.lookup (.model, .stype) ≠ some (.str "span")),
            avgSize := ((N + 1 : ℕ) : ℝ) / (3 : ℕ), tolerance := (N + 1 : ℕ) * ((3 / 100 : ℚ) : ℝ), eps := 1e-8 },
    decide (kw.lookup (.model, .stype) ≠ some (.str "span")), ?_, by simp, fun es padded deg z => ?_⟩
  · unfold ncSettings
    rw [hp, ht, hst]
    by_cases hq : kw.lookup (Section.model, Key.stype) = some (Val.str "span")
    · simp [Val.rat?, Val.str?, hp0, hq]
    · simp [Val.rat?, Val.str?, hp0, hq]
  · rw [← hpr, ← h3]
    unfold cutCost
    by_cases hq : kw.lookup (Section.model, Key.stype) = some (Val.str "span")
    · simp only [ncObjective, hq, ne_eq, not_true_eq_false, decide_false, gt_iff_lt, hpr0, if_true,
        Bool.false_eq_true, if_false, ncCutSizes_eq, partSize_eq, sum_boundary, cond_false]
      congr 3
      refine Finset.sum_congr rfl fun g _ => ?_
      have htol : (0 : ℝ) ≤ (N + 1 : ℕ) * ((3 / 100 : ℚ) : ℝ) := by rw [h3]; positivity
      generalize ((N + 1 : ℕ) : ℝ) * ((3 / 100 : ℚ) : ℝ) = t at htol
      push_cast
      generalize (partSize z g : ℝ) = a
      generalize ((N : ℝ) + 1) / 3 = b
      rcases le_total a b with hab | hab
      · rw [abs_of_nonpos (by linarith), max_eq_right (by linarith : a - b - t ≤ 0)]
        have : -(a - b) - t = b - t - a := by ring
        rw [this]; ring
      · rw [abs_of_nonneg (by linarith), max_eq_right (by linarith : b - t - a ≤ 0)]
        ring
    · rw [ncObjective_quad _ hpr0 (by simp [hq])]
      simp [hq]

end Discs
