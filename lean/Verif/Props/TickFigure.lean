import Verif.Props.Bars
import Mathlib.Data.List.Dedup
import Mathlib.Data.List.Perm.Subperm
import Mathlib.Data.List.Nodup

/-!
# Figures and the number of ticks (C97)

The ticks are made unique (`plot_results.py:346`), the results of a sampler are not.
-/

namespace Discs

/-- The figure of a cluster whose rows hold the tick and the result of every folder of a sampler: as many ticks as
different values (`plot_results.py:341-346`), a row of results for every sampler (`plot_results.py:28-140`). -/
def tickFigure {V R : Type*} [DecidableEq V] [Zero R] (rows : List (List (V × R))) : Option (List (List R)) :=
  barHeights (rows.flatten.map Prod.fst).dedup.length (rows.map (·.map Prod.snd))

/-- **C97 (complete sweeps).**  If every sampler was run for the same swept values, whose ticks are `e`, a figure is drawn
if and only if no two of the values have the same tick; it shows the results unchanged. -/
theorem tickFigure_complete {V R : Type*} [DecidableEq V] [Zero R] {rows : List (List (V × R))} (h0 : rows ≠ [])
    {e : List V} (h : ∀ r ∈ rows, (r.map Prod.fst).Perm e) :
    (tickFigure rows = none ↔ ¬ e.Nodup) ∧
      (e.Nodup → tickFigure rows = some (rows.map (·.map Prod.snd))) := by
  obtain ⟨r, rs, rfl⟩ := List.exists_cons_of_ne_nil h0
  have hd : (((r :: rs).flatten.map Prod.fst).dedup).Perm e.dedup := by
    rw [List.perm_ext_iff_of_nodup (List.nodup_dedup _) (List.nodup_dedup _)]
    intro v
    simp only [List.mem_dedup, List.mem_map, List.mem_flatten]
    constructor
    · rintro ⟨p, ⟨q, hq, hp⟩, rfl⟩
      exact (h q hq).mem_iff.1 (List.mem_map_of_mem hp)
    · intro hv
      obtain ⟨p, hp, rfl⟩ := List.mem_map.1 ((h r List.mem_cons_self).mem_iff.2 hv)
      exact ⟨p, ⟨r, List.mem_cons_self, hp⟩, rfl⟩
  have hl : ∀ q ∈ r :: rs, (q.map Prod.snd).length = e.length := by
    intro q hq
    rw [List.length_map, ← (h q hq).length_eq, List.length_map]
  have key : ∀ n, n = e.dedup.length → (e.Nodup →
      barHeights n ((r :: rs).map (·.map Prod.snd)) = some ((r :: rs).map (·.map Prod.snd))) ∧
      (¬ e.Nodup → barHeights n ((r :: rs).map (·.map Prod.snd)) = none) := by
    rintro n rfl
    constructor
    · intro hn
      rw [List.map_cons, barHeights_some, hn.dedup]
      refine ⟨hl r List.mem_cons_self, ?_, ?_⟩
      · intro q hq
        obtain ⟨q, hq', rfl⟩ := List.mem_map.1 hq
        exact (hl q (List.mem_cons_of_mem _ hq')).le
      · rw [← List.map_cons (f := fun q : List (V × R) => q.map Prod.snd), List.map_map]
        refine List.map_congr_left fun q hq => ?_
        rw [Function.comp_apply, padBars, hl q hq, Nat.sub_self, List.replicate_zero, List.append_nil]
    · intro hn
      rw [List.map_cons, barHeights, if_pos]
      rw [hl r List.mem_cons_self]
      intro he
      exact hn (List.dedup_eq_self.1 ((List.dedup_sublist e).eq_of_length he.symm))
  obtain ⟨k1, k2⟩ := key _ hd.length_eq
  refine ⟨⟨fun hf hn => ?_, k2⟩, k1⟩
  unfold tickFigure at hf
  rw [k1 hn] at hf
  cases hf

/-- Two samplers, chain lengths 10 and 20; and two samplers, penalties 1.001 and 1.01 with the tick one. -/
example : tickFigure [[(10, 3), (20, 4)], [(10, 5), (20, 6)]] = some [[3, 4], [5, 6]] ∧
    tickFigure [[(1, 3), (1, 4)], [(1, 5), (1, 6)]] = none := by decide

end Discs
