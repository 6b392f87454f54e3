import Verif.Props.AnnealBest
import Verif.Props.Comb

/-!
# Property C109: score gaps of the shipped problems, and the shipped schedules
-/

namespace Discs

open Finset Spec

variable {N D : ℕ}

/-- A 0/1 sample of the experiment as the array the models see. -/
def asReal (x : Fin (N + 1) → ℤ) (v : Fin (N + 1)) : ℝ := x v

theorem asReal_binary {x : Fin (N + 1) → ℤ} (hx : x ∈ validStates 2 (N + 1)) : IsBinary (asReal x) := by
  intro v
  have := mem_validStates_two.1 hx v
  unfold asReal
  rcases this with h | h <;> simp [h]

/-- The score of a MaxCut instance. -/
noncomputable def maxcutScore (es : List (Edge N)) (padded : ℕ) (x : Fin (N + 1) → ℤ) : ℝ :=
  maxcutObjective (graph2edges es padded) (asReal x)

/-- The score of a MIS instance. -/
noncomputable def misScore (es : List (Edge N)) (padded n : ℕ) (coeff : ℝ) (x : Fin (N + 1) → ℤ) : ℝ :=
  misObjective (nodeMask n) (asReal x) - misPenalty (graph2edges es padded) (nodeMask n) coeff (asReal x)

theorem maxcutScore_eq (es : List (Edge N)) (padded : ℕ) {x : Fin (N + 1) → ℤ} (hx : x ∈ validStates 2 (N + 1)) :
    maxcutScore es padded x = cutWeight es (asReal x) := by
  have := maxcut_score es padded (T := 1) one_ne_zero (asReal_binary hx)
  rw [comb_evaluate _ _ one_ne_zero, noPenalty, sub_zero] at this
  exact this

theorem misScore_eq (es : List (Edge N)) (padded n : ℕ) (coeff : ℝ) {x : Fin (N + 1) → ℤ}
    (hx : x ∈ validStates 2 (N + 1)) :
    misScore es padded n coeff x =
      (chosen n (asReal x)).card - coeff * insideCount es (chosen n (asReal x)) := by
  have := mis_score es padded n coeff (T := 1) one_ne_zero (asReal_binary hx)
  rw [comb_evaluate _ _ one_ne_zero] at this
  exact this

/-- **C109 (MaxCut).** With integer weights the second best cut is worse by at least one. -/
theorem maxcut_gap (es : List (Edge N)) (padded : ℕ) (hw : ∀ e ∈ es, ∃ k : ℤ, e.w = k) :
    ∀ x ∈ optima (validStates 2 (N + 1)) (maxcutScore es padded), ∀ y ∈ validStates 2 (N + 1),
      y ∉ optima (validStates 2 (N + 1)) (maxcutScore es padded) →
        maxcutScore es padded y + 1 ≤ maxcutScore es padded x := by
  have hint : ∀ x ∈ validStates 2 (N + 1), ∃ k : ℤ, maxcutScore es padded x = k := by
    intro x hx
    rw [maxcutScore_eq es padded hx]
    unfold cutWeight
    clear hx padded
    induction es with
    | nil => exact ⟨0, by simp⟩
    | cons e es ih =>
      obtain ⟨k, hk⟩ := ih fun e he => hw e (List.mem_cons_of_mem _ he)
      obtain ⟨j, hj⟩ := hw e (List.mem_cons_self ..)
      rw [List.map_cons, List.sum_cons, hk]
      split_ifs
      · exact ⟨j + k, by rw [hj]; push_cast; ring⟩
      · exact ⟨k, by ring⟩
  intro x hx y hy hny
  obtain ⟨hxS, hxm⟩ := mem_optima.1 hx
  obtain ⟨k, hk⟩ := hint x hxS
  obtain ⟨j, hj⟩ := hint y hy
  have hlt : maxcutScore es padded y < maxcutScore es padded x := by
    refine lt_of_le_of_ne (hxm y hy) fun heq => hny (mem_optima.2 ⟨hy, fun z hz => ?_⟩)
    rw [heq]; exact hxm z hz
  rw [hk, hj] at hlt ⊢
  have : j < k := by exact_mod_cast hlt
  exact_mod_cast this

/-- A 0/1 sample choosing a given set of nodes. -/
noncomputable def chooseInt (S : Finset (Fin (N + 1))) (v : Fin (N + 1)) : ℤ := if v ∈ S then 1 else 0

theorem chooseInt_valid (S : Finset (Fin (N + 1))) : chooseInt S ∈ validStates 2 (N + 1) :=
  mem_validStates_two.2 fun v => by unfold chooseInt; split_ifs <;> simp

theorem asReal_chooseInt (S : Finset (Fin (N + 1))) : asReal (chooseInt S) = indicator S := by
  funext v
  unfold asReal chooseInt indicator
  split_ifs <;> simp

theorem misScore_indep (es : List (Edge N)) (padded n : ℕ) (coeff : ℝ) {S : Finset (Fin (N + 1))}
    (hS : ∀ v ∈ S, v.val < n) (hi : IsIndep es S) : misScore es padded n coeff (chooseInt S) = S.card := by
  rw [misScore_eq es padded n coeff (chooseInt_valid S), asReal_chooseInt, chosen_indicator hS,
    insideCount_eq_zero.2 hi]
  simp

/-- **C109 (MIS).** Worse samples are worse by at least `min 1 (penalty - 1)`. -/
theorem mis_gap (es : List (Edge N)) (padded n : ℕ) {coeff : ℝ} (hc : 1 < coeff) :
    ∀ x ∈ optima (validStates 2 (N + 1)) (misScore es padded n coeff), ∀ y ∈ validStates 2 (N + 1),
      y ∉ optima (validStates 2 (N + 1)) (misScore es padded n coeff) →
        misScore es padded n coeff y + min 1 (coeff - 1) ≤ misScore es padded n coeff x := by
  have hbelow : ∀ (x : Fin (N + 1) → ℝ), ∀ S ⊆ chosen n x, ∀ v ∈ S, v.val < n := by
    intro x S hS v hv
    have := hS hv
    simp only [chosen, Finset.mem_filter] at this
    exact this.2.1
  intro x hx y hy hny
  obtain ⟨hxS, hxm⟩ := mem_optima.1 hx
  -- the optimum is an integer
  obtain ⟨S, hS, hi, hcard⟩ := exists_indep es (chosen n (asReal x))
  have hSle := hxm _ (chooseInt_valid S)
  rw [misScore_indep es padded n coeff (hbelow _ S hS) hi] at hSle
  have hcard' : ((chosen n (asReal x)).card : ℝ) ≤ S.card + insideCount es (chosen n (asReal x)) := by
    exact_mod_cast hcard
  have hin0 : (0 : ℝ) ≤ insideCount es (chosen n (asReal x)) := Nat.cast_nonneg _
  have hopt : misScore es padded n coeff x = S.card := by
    refine le_antisymm ?_ hSle
    rw [misScore_eq es padded n coeff hxS]
    nlinarith
  rw [hopt]
  by_cases hyi : insideCount es (chosen n (asReal y)) = 0
  · have hlt : misScore es padded n coeff y < misScore es padded n coeff x := by
      refine lt_of_le_of_ne (hxm y hy) fun heq => hny (mem_optima.2 ⟨hy, fun z hz => ?_⟩)
      rw [heq]; exact hxm z hz
    rw [hopt, misScore_eq es padded n coeff hy, hyi] at hlt
    rw [misScore_eq es padded n coeff hy, hyi]
    simp only [Nat.cast_zero, mul_zero, sub_zero] at hlt ⊢
    have h1 : (chosen n (asReal y)).card + 1 ≤ S.card := by exact_mod_cast hlt
    have h2 : ((chosen n (asReal y)).card : ℝ) + 1 ≤ S.card := by exact_mod_cast h1
    linarith [min_le_left 1 (coeff - 1)]
  · obtain ⟨S', hS', hi', hc'⟩ := exists_indep es (chosen n (asReal y))
    have h1 := hxm _ (chooseInt_valid S')
    rw [misScore_indep es padded n coeff (hbelow _ S' hS') hi', hopt] at h1
    have h2 : ((chosen n (asReal y)).card : ℝ) ≤ S'.card + insideCount es (chosen n (asReal y)) := by
      exact_mod_cast hc'
    have h3 : (1 : ℝ) ≤ insideCount es (chosen n (asReal y)) := by
      exact_mod_cast Nat.one_le_iff_ne_zero.2 hyi
    rw [misScore_eq es padded n coeff hy]
    nlinarith [min_le_right 1 (coeff - 1)]

/-- **C109 (MIS, the gap is attained).** On a single edge, choosing both end points is worse than the optimum
by `penalty - 1` only. -/
theorem mis_gap_tight {coeff : ℝ} (hc : 1 < coeff) :
    let es : List (Edge 1) := [⟨0, 1, 1⟩]
    let y : Fin 2 → ℤ := chooseInt (N := 1) {0, 1}
    ¬ IsIndep es {0, 1} ∧ y ∉ optima (validStates 2 2) (misScore es 0 2 coeff) ∧
      ∀ x ∈ optima (validStates 2 2) (misScore es 0 2 coeff),
        misScore es 0 2 coeff y = misScore es 0 2 coeff x - (coeff - 1) := by
  intro es y
  have hes : ¬ IsIndep es {0, 1} := by simp [es, IsIndep]
  have hin : insideCount es {0, 1} = 1 := by simp [es, insideCount]
  have hy : misScore es 0 2 coeff y = 1 - (coeff - 1) := by
    rw [misScore_eq es 0 2 coeff (chooseInt_valid _), asReal_chooseInt, chosen_indicator (by simp), hin]
    simp; ring
  have hone : misScore es 0 2 coeff (chooseInt (N := 1) {0}) = 1 := by
    rw [misScore_indep es 0 2 coeff (by simp) (by simp [es, IsIndep])]
    simp
  have hopt : ∀ x ∈ optima (validStates 2 2) (misScore es 0 2 coeff), misScore es 0 2 coeff x = 1 := by
    intro x hx
    obtain ⟨hxS, hxm⟩ := mem_optima.1 hx
    refine le_antisymm ?_ (hone ▸ hxm _ (chooseInt_valid _))
    obtain ⟨S, hS, hi, hcard⟩ := exists_indep es (chosen 2 (asReal x))
    have h1 : S.card ≤ 1 := by
      by_contra hcon
      have h2 : S = Finset.univ := by
        refine Finset.eq_univ_of_card S (le_antisymm (Finset.card_le_univ S) ?_)
        simp; omega
      rw [h2] at hi
      exact hi ⟨0, 1, 1⟩ (by simp [es]) (by simp)
    have h2 : ((chosen 2 (asReal x)).card : ℝ) ≤ S.card + insideCount es (chosen 2 (asReal x)) := by
      exact_mod_cast hcard
    have h3 : (S.card : ℝ) ≤ 1 := by exact_mod_cast h1
    have h4 : (0 : ℝ) ≤ insideCount es (chosen 2 (asReal x)) := Nat.cast_nonneg _
    rw [misScore_eq es 0 2 coeff hxS]
    nlinarith
  refine ⟨hes, fun h => ?_, fun x hx => by rw [hopt x hx, hy]⟩
  have := hopt y h
  rw [hy] at this
  linarith

/-- **C109 (MIS, weight of violated constraints).** At temperature `T` the sample that chooses both end points
of the edge has the weight of an optimum times `exp (-(penalty - 1) / T)`; with the shipped penalty 1.0001 and
the last shipped temperature 0.005 of `mis/satlib` that is more than 98 %. -/
theorem mis_infeasible_weight {coeff : ℝ} (hc : 1 < coeff) (T : ℝ) :
    let es : List (Edge 1) := [⟨0, 1, 1⟩]
    ∀ x ∈ optima (validStates 2 2) (misScore es 0 2 coeff),
      boltz (misScore es 0 2 coeff) T (chooseInt (N := 1) {0, 1}) =
        Real.exp (-((coeff - 1) / T)) * boltz (misScore es 0 2 coeff) T x := by
  intro es x hx
  have h := (mis_gap_tight hc).2.2 x hx
  unfold boltz
  rw [h, ← Real.exp_add]
  congr 1
  ring

example : 0.98 ≤ Real.exp (-((1.0001 - 1) / 0.005 : ℝ)) := by
  have := Real.add_one_le_exp (-((1.0001 - 1) / 0.005 : ℝ))
  refine le_trans ?_ this
  norm_num

/-- **C109 (shipped schedules).** In every shipped configuration with `exp_decay` the final temperature is
never reached: the run ends at `init * decay_rate`, which is larger. -/
theorem shipped_exp_end : ∀ c ∈ shippedSchedules, c.exp = true →
    c.fin < c.init * c.rate ∧ c.temp c.len = c.init * c.rate ∧ ∀ t ≤ c.len, c.fin < c.temp t := by
  have key : ∀ c ∈ shippedSchedules, c.exp = true → c.fin < c.init * c.rate ∧ 0 < c.len ∧ 0 < c.fin ∧
      0 < c.rate ∧ c.rate < 1 ∧ c.fin ≤ c.init := by
    intro c hc he
    simp only [shippedSchedules, List.mem_cons, List.not_mem_nil, or_false] at hc
    rcases hc with rfl | rfl | rfl | rfl | rfl | rfl | rfl | rfl | rfl | rfl <;> simp at he ⊢ <;> norm_num
  intro c hc he
  obtain ⟨h1, h2, h3, h4, h5, h6⟩ := key c hc he
  have hend : c.temp c.len = c.init * c.rate := by
    unfold ScheduleCfg.temp
    rw [if_pos he, (exp_schedule c.init c.fin c.rate h6 h3 h4 h5 c.len c.len c.len le_rfl).2.2.2.2 h2,
      max_eq_left h1.le]
  refine ⟨h1, hend, fun t ht => lt_of_lt_of_le (hend ▸ h1) ?_⟩
  unfold ScheduleCfg.temp
  rw [if_pos he]
  exact (exp_schedule c.init c.fin c.rate h6 h3 h4 h5 c.len t c.len ht).2.1

/-- **C109 (MaxCut, random walk).** With integer weights, the probability that the last sample of the annealed
run is a maximum cut. -/
theorem maxcut_rw_anneal (es : List (Edge N)) (padded : ℕ) (hw : ∀ e ∈ es, ∃ k : ℤ, e.w = k)
    (adaptive : Bool) (tgt : ℝ) {tiny : ℝ} (ht : 0 ≤ tiny) (temp : ℕ → ℝ) (s : ℕ → RWState) {a : ℝ}
    (ha : 0 < a) (ha1 : a ≤ 1) (hlo : ∀ t, a * (2 - 1 : ℕ) * (N + 1 : ℕ) ≤ (s t).radius)
    (hhi : ∀ t, (s t).radius ≤ (1 - a * (2 - 1 : ℕ)) * (N + 1 : ℕ)) {R lam : ℝ} (hlam : 0 ≤ lam)
    (hR : ∀ x ∈ validStates 2 (N + 1), ∀ y ∈ validStates 2 (N + 1),
      cutWeight es (asReal x) - cutWeight es (asReal y) ≤ R) (L : ℕ)
    (hT : ∀ t < L, |1 / temp t - 1 / temp (t + 1)| ≤ lam) (hTL : 0 < temp L) :
    ∀ x ∈ validStates 2 (N + 1),
      1 - 2 ^ (N + 1) * Real.exp (-(1 / temp L)) - ((1 - a ^ (N + 1)) ^ L + (lam * R + tiny) / a ^ (N + 1)) ≤
      mass (iterate (validStates 2 (N + 1))
          (rwAnneal adaptive tgt tiny (maxcutScore es padded) noPenalty temp 2 s) L x)
        (optima (validStates 2 (N + 1)) fun x => cutWeight es (asReal x)) := by
  intro x hx
  have e0 : (fun x : Fin (N + 1) → ℤ => maxcutScore es padded x - noPenalty x) = maxcutScore es padded := by
    funext x; simp [noPenalty]
  have e1 : optima (validStates 2 (N + 1)) (fun x => cutWeight es (asReal x)) =
      optima (validStates 2 (N + 1)) (maxcutScore es padded) := by
    ext z
    rw [mem_optima, mem_optima]
    refine and_congr_right fun hz => ⟨fun h y hy => ?_, fun h y hy => ?_⟩
    · rw [maxcutScore_eq es padded hy, maxcutScore_eq es padded hz]; exact h y hy
    · have := h y hy
      rwa [maxcutScore_eq es padded hy, maxcutScore_eq es padded hz] at this
  have hcard : ((validStates 2 (N + 1)).card : ℝ) = 2 ^ (N + 1) := by
    simp [validStates, Fintype.card_piFinset]
  have := rw_anneal_optimum adaptive tgt ht (maxcutScore es padded) noPenalty temp le_rfl s ha ha1 hlo hhi
    (g := 1) hlam (fun y hy z hz => by
      simp only [noPenalty, sub_zero]
      rw [maxcutScore_eq es padded hy, maxcutScore_eq es padded hz]
      exact hR y hy z hz) L hT hTL (by
      rw [e0]
      simp only [noPenalty, sub_zero]
      exact maxcut_gap es padded hw) x hx
  rw [e0, hcard] at this
  rw [e1]
  exact this

/-- A non-trivial instance: on a triangle with weights 1, 2, 3, annealing from 1 to 0.1 over at least 100000
steps with radius 3/2 (every site is flipped with probability 1/2) ends in a maximum cut with probability at
least 0.9. -/
example (tiny : ℝ) (ht : 0 ≤ tiny) (ht' : tiny ≤ 0.001) (L : ℕ) (hL : 100000 ≤ L) :
    let es : List (Edge 2) := [⟨0, 1, 1⟩, ⟨1, 2, 2⟩, ⟨0, 2, 3⟩]
    ∀ x ∈ validStates 2 (2 + 1), 0.9 ≤
      mass (iterate (validStates 2 (2 + 1))
          (rwAnneal false 0 tiny (maxcutScore es 0) noPenalty (linearSchedule 1 (1 / 10) L) 2
            fun _ => ⟨0, 0, 3 / 2, none⟩) L x)
        (optima (validStates 2 (2 + 1)) fun x => cutWeight es (asReal x)) := by
  intro es x hx
  have hL' : (100000 : ℝ) ≤ L := by exact_mod_cast hL
  have h1 := (linear_schedule 1 (1 / 10) (by norm_num) (by norm_num) L L L le_rfl).2.2.2.2 (by omega)
  have := maxcut_rw_anneal es 0 (by
      simp only [es, List.mem_cons, List.not_mem_nil, or_false]
      rintro e (rfl | rfl | rfl)
      exacts [⟨1, by norm_num⟩, ⟨2, by norm_num⟩, ⟨3, by norm_num⟩]) false 0 ht
    (linearSchedule 1 (1 / 10) L) (fun _ => ⟨0, 0, 3 / 2, none⟩) (a := 1 / 2) (by norm_num) (by norm_num)
    (fun _ => by norm_num) (fun _ => by norm_num) (R := 6)
    (lam := (1 - 1 / 10) / (L * (1 / 10) ^ 2))
    (by positivity) (fun y _ z _ => by
      simp only [es, cutWeight, List.map_cons, List.map_nil, List.sum_cons, List.sum_nil]
      split_ifs <;> norm_num) L (fun t htL => linear_drift (by norm_num) (by norm_num) htL)
    (by rw [h1]; norm_num) x hx
  rw [h1] at this
  refine le_trans ?_ this
  have e1 : Real.exp (-(1 / (1 / 10))) ≤ 1 / 1024 := by
    have h2 : (2 : ℝ) ≤ Real.exp 1 := by have := Real.add_one_le_exp (1 : ℝ); linarith
    have h3 : (2 : ℝ) ^ 10 ≤ Real.exp 1 ^ 10 := pow_le_pow_left₀ (by norm_num) h2 10
    rw [← Real.exp_nat_mul] at h3
    rw [show (-(1 / (1 / 10)) : ℝ) = -((10 : ℕ) * 1) by norm_num, Real.exp_neg, one_div]
    exact inv_anti₀ (by norm_num) (by norm_num at h3 ⊢; exact h3)
  have e2 : (1 - (1 / 2 : ℝ) ^ (2 + 1)) ^ L ≤ (1 - (1 / 2 : ℝ) ^ (2 + 1)) ^ 40 :=
    pow_le_pow_of_le_one (by norm_num) (by norm_num) (by omega)
  have e3 : (1 - (1 / 2 : ℝ) ^ (2 + 1)) ^ 40 ≤ 0.005 := by norm_num
  have e4 : ((1 - 1 / 10) / ((L : ℝ) * (1 / 10) ^ 2) * 6 + tiny) / (1 / 2) ^ (2 + 1) ≤ 0.0432 + 8 * tiny := by
    have h5 : (1 - 1 / 10) / ((L : ℝ) * (1 / 10) ^ 2) ≤ 0.0009 := by
      rw [div_le_iff₀ (by positivity)]; norm_num; linarith
    norm_num at h5 ⊢
    linarith
  have e5 : (2 : ℝ) ^ (2 + 1) * Real.exp (-(1 / (1 / 10))) ≤ 8 * (1 / 1024) := by
    rw [show (2 : ℝ) ^ (2 + 1) = 8 by norm_num]
    exact mul_le_mul_of_nonneg_left e1 (by norm_num)
  have e6 := e2.trans e3
  norm_num at e5 e6 e4 ht' ⊢
  linarith

end Discs
