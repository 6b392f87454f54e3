import Verif.Spec.Search
import Verif.Lemmas.Anneal
import Verif.Lemmas.Search
import Verif.Props.BatchKernel

/-!
# Lemmas on what a run shows at the steps someone looks at
-/

namespace Discs.Spec

open Finset

variable {X : Type*} [DecidableEq X] {S A : Finset X} {K : ℕ → X → X → ℝ} {look : ℕ → Prop} [DecidablePred look]

theorem missAt_nonneg (hK : ∀ t, Stochastic S (K t)) (n : ℕ) : ∀ t, ∀ x ∈ S, 0 ≤ missAt S K look A n t x := by
  induction n with
  | zero => intro t x _; exact zero_le_one
  | succ n ih =>
    intro t x hx
    refine Finset.sum_nonneg fun z hz => mul_nonneg ((hK t).1 x hx z) ?_
    split_ifs
    · rfl
    · exact ih _ z hz

theorem missAt_le_one (hK : ∀ t, Stochastic S (K t)) (n : ℕ) : ∀ t, ∀ x ∈ S, missAt S K look A n t x ≤ 1 := by
  induction n with
  | zero => intro t x _; exact le_rfl
  | succ n ih =>
    intro t x hx
    rw [← (hK t).2.1 x hx]
    refine Finset.sum_le_sum fun z hz => mul_le_of_le_one_right ((hK t).1 x hx z) ?_
    split_ifs
    · exact zero_le_one
    · exact ih _ z hz

/-- The same as a sum over trajectories. -/
theorem missAt_traj (L : ℕ) : ∀ t, ∀ x,
    ∑ v ∈ (paths S L).filter (fun v => ∀ i : Fin L, look (t + i) → v i ∉ A), trajProb (fun i => K (t + i)) L x v =
      missAt S K look A L t x := by
  induction L with
  | zero => intro t x; simp [paths, trajProb, missAt]
  | succ L ih =>
    intro t x
    rw [Finset.sum_filter, sum_paths_succ, missAt]
    refine Finset.sum_congr rfl fun y hy => ?_
    have hih := ih (t + 1) y
    have eK : (fun i => K (t + 1 + i)) = fun i => K (t + (i + 1)) := by
      funext i; rw [add_assoc, add_comm 1 i]
    have eidx : ∀ (w : Fin L → X), (∀ i : Fin (L + 1), look (t + i) → (Fin.cons y w : Fin (L + 1) → X) i ∉ A) ↔
        ¬ (look t ∧ y ∈ A) ∧ ∀ i : Fin L, look (t + 1 + i) → w i ∉ A := by
      intro w
      rw [Fin.forall_fin_succ]
      simp only [Fin.cons_zero, Fin.cons_succ, Fin.val_zero, add_zero, Fin.val_succ, not_and]
      refine and_congr_right fun _ => forall_congr' fun i => ?_
      rw [add_assoc, add_comm 1 (i : ℕ)]
    simp only [eidx]
    split_ifs with h
    · rw [mul_zero]
      exact Finset.sum_eq_zero fun w _ => if_neg fun h' => h'.1 h
    · rw [← hih, Finset.mul_sum, Finset.sum_filter]
      refine Finset.sum_congr rfl fun w _ => ?_
      simp only [h, not_false_eq_true, true_and, trajProb, Fin.cons_zero, Fin.cons_succ, add_zero, eK]

/-- If moves of probability at least `a` lead into `A` at a step someone looks at within `M` steps from everywhere, the
probability to miss `A` shrinks geometrically. -/
theorem missAt_le (hK : ∀ t, Stochastic S (K t)) {R : ℕ → X → X → Prop} {a : ℝ} (ha : 0 ≤ a) (ha1 : a ≤ 1)
    {N : ℕ} (hR : ∀ t < N, ∀ x ∈ S, ∀ z ∈ S, R t x z → a ≤ K t x z) {M : ℕ}
    (hreach : ∀ t, ∀ x ∈ S, Reaches S R look A M t x) (j : ℕ) :
    ∀ n, j * M ≤ n → ∀ t, t + n ≤ N → ∀ x ∈ S, missAt S K look A n t x ≤ (1 - a ^ M) ^ j := by
  induction j with
  | zero => intro n _ t _ x hx; rw [pow_zero]; exact missAt_le_one hK n t x hx
  | succ j ih =>
    have hc0 : 0 ≤ (1 - a ^ M) ^ j := pow_nonneg (by linarith [pow_le_one₀ (n := M) ha ha1]) j
    have key : ∀ m, ∀ t, ∀ x ∈ S, Reaches S R look A m t x → ∀ n, j * M + m ≤ n → t + n ≤ N →
        missAt S K look A n t x ≤ (1 - a ^ M) ^ j * (1 - a ^ m) := by
      intro m
      induction m with
      | zero => intro t x _ h; exact absurd h id
      | succ m ihm =>
        rintro t x hx ⟨z, hz, hxz, hrest⟩ n hn hN
        obtain ⟨n, rfl⟩ : ∃ n', n = n' + 1 := ⟨n - 1, by omega⟩
        have h2 := hR t (by omega) x hx z hz hxz
        have h3 := (hK t).1 x hx
        have hm0 : 0 ≤ a ^ m := pow_nonneg ha m
        have hz1 : (if look t ∧ z ∈ A then 0 else missAt S K look A n (t + 1) z) ≤
            (1 - a ^ M) ^ j * (1 - a ^ m) := by
          have hm1 : a ^ m ≤ 1 := pow_le_one₀ ha ha1
          split_ifs with h
          · exact mul_nonneg hc0 (by linarith)
          · exact ihm (t + 1) z hz (hrest.resolve_left h) n (by omega) (by omega)
        rw [missAt, ← Finset.add_sum_erase S _ hz]
        have h4 : ∑ w ∈ S.erase z, (K t x w * if look t ∧ w ∈ A then 0 else missAt S K look A n (t + 1) w) ≤
            ∑ w ∈ S.erase z, K t x w * (1 - a ^ M) ^ j := by
          refine Finset.sum_le_sum fun w hw => mul_le_mul_of_nonneg_left ?_ (h3 w)
          split_ifs
          · exact hc0
          · exact ih n (by omega) _ (by omega) w (mem_of_mem_erase hw)
        have h5 : ∑ w ∈ S.erase z, K t x w = 1 - K t x z := by
          rw [← (hK t).2.1 x hx, ← Finset.add_sum_erase S _ hz]; ring
        rw [← Finset.sum_mul, h5] at h4
        have h6 := mul_le_mul_of_nonneg_left hz1 (h3 z)
        have h7 : a * a ^ m * (1 - a ^ M) ^ j ≤ K t x z * a ^ m * (1 - a ^ M) ^ j :=
          mul_le_mul_of_nonneg_right (mul_le_mul_of_nonneg_right h2 hm0) hc0
        rw [pow_succ' a m]
        nlinarith
    intro n hn t hN x hx
    refine (key M t x hx (hreach t x hx) n (by rw [add_mul, one_mul] at hn; omega) hN).trans ?_
    rw [pow_succ]

/-- A closed set of states that contains none of `A`. -/
theorem missAt_eq_one (hK : ∀ t, Stochastic S (K t)) {T : X → Prop}
    (hT : ∀ t, ∀ z ∈ S, T z → ∀ w ∈ S, ¬ T w → K t z w = 0) (hA : ∀ y ∈ A, ¬ T y) (n : ℕ) :
    ∀ t, ∀ x ∈ S, T x → missAt S K look A n t x = 1 := by
  induction n with
  | zero => intro t x hx hTx; rfl
  | succ n ih =>
    intro t x hx hTx
    rw [missAt, ← (hK t).2.1 x hx]
    refine Finset.sum_congr rfl fun z hz => ?_
    by_cases hTz : T z
    · rw [if_neg fun h => hA z h.2 hTz, ih _ z hz hTz, mul_one]
    · rw [hT t x hx hTx z hz hTz, zero_mul]

/-- Independent chains all miss `A` with the product of the probabilities. -/
theorem missAt_batch {B : ℕ} (n : ℕ) : ∀ t, ∀ x : Fin B → X,
    missAt (prodStates B S) (fun t => prodKernel (K t)) look ((prodStates B S).filter fun y => ∃ b, y b ∈ A) n t x =
      ∏ b, missAt S K look A n t (x b) := by
  induction n with
  | zero => intro t x; simp [missAt]
  | succ n ih =>
    intro t x
    simp only [missAt, ih]
    rw [Finset.prod_univ_sum]
    refine Finset.sum_congr rfl fun y hy => ?_
    have hy' := mem_prodStates.1 hy
    rw [Finset.prod_mul_distrib]
    refine congrArg₂ (· * ·) rfl ?_
    have hmem : (y ∈ (prodStates B S).filter fun y => ∃ b, y b ∈ A) ↔ ∃ b, y b ∈ A :=
      mem_filter.trans (and_iff_right hy)
    simp only [hmem]
    by_cases h : look t ∧ ∃ b, y b ∈ A
    · rw [if_pos h]
      obtain ⟨hl, b, hb⟩ := h
      symm
      exact Finset.prod_eq_zero (mem_univ b) (if_pos (And.intro hl hb))
    · rw [if_neg h]
      exact Finset.prod_congr rfl fun b _ => (if_neg fun hc => h ⟨hc.1, b, hc.2⟩).symm

omit [DecidableEq X] [DecidablePred look] in
theorem Reaches.mono {R : ℕ → X → X → Prop} {m : ℕ} :
    ∀ {m' t : ℕ} {x : X}, m ≤ m' → x ∈ S → Reaches S R look A m t x → Reaches S R look A m' t x := by
  induction m with
  | zero => intro m' t x _ _ h; exact absurd h id
  | succ m ih =>
    rintro m' t x hm hx ⟨z, hz, h1, h2⟩
    obtain ⟨m', rfl⟩ : ∃ k, m' = k + 1 := ⟨m' - 1, by omega⟩
    exact ⟨z, hz, h1, h2.imp id fun h => ih (by omega) hz h⟩

omit [DecidableEq X] [DecidablePred look] in
/-- A sequence of moves that ends in `A` at a step someone looks at. -/
theorem reaches_of_seq {R : ℕ → X → X → Prop} (n : ℕ) : ∀ t (z : ℕ → X), (∀ i ≤ n + 1, z i ∈ S) →
    (∀ i < n + 1, R (t + i) (z i) (z (i + 1))) → z (n + 1) ∈ A → look (t + n) → Reaches S R look A (n + 1) t (z 0) := by
  induction n with
  | zero => intro t z hS hR hA hl; exact ⟨z 1, hS 1 le_rfl, hR 0 one_pos, Or.inl ⟨hl, hA⟩⟩
  | succ n ih =>
    intro t z hS hR hA hl
    refine ⟨z 1, hS 1 (by omega), hR 0 (by omega), Or.inr ?_⟩
    refine ih (t + 1) (fun i => z (i + 1)) (fun i hi => hS _ (by omega)) (fun i hi => ?_) hA ?_
    · have := hR (i + 1) (by omega)
      rwa [← add_assoc, add_right_comm] at this
    · rwa [← add_assoc, add_right_comm] at hl

omit [DecidableEq X] [DecidablePred look] in
/-- A walk that ends in `A` at a step someone looks at. -/
theorem reaches_of_walk {R : X → X → Prop} {y : X} (hy : y ∈ S) (hA : y ∈ A) (n : ℕ) :
    ∀ t, ∀ x ∈ S, Walk S R (n + 1) x y → look (t + n) → Reaches S (fun _ => R) look A (n + 1) t x := by
  induction n with
  | zero =>
    intro t x hx hw hl
    obtain ⟨z, hz, h1, rfl⟩ := Walk.cons hx hy hw
    exact ⟨z, hz, h1, Or.inl ⟨hl, hA⟩⟩
  | succ n ih =>
    intro t x hx hw hl
    obtain ⟨z, hz, h1, h2⟩ := Walk.cons hx hy hw
    refine ⟨z, hz, h1, Or.inr (ih (t + 1) z hz h2 ?_)⟩
    rwa [← add_assoc, add_right_comm] at hl

/-- The next multiple of `e` after `n`. -/
theorem exists_logged {e : ℕ} (he : 0 < e) (t n : ℕ) : ∃ k, n ≤ k ∧ k + 1 ≤ n + e ∧ e ∣ t + k + 1 := by
  have h1 := Nat.mod_lt (t + n) he
  refine ⟨n + (e - (t + n) % e) - 1, by omega, by omega, ?_⟩
  have h2 := Nat.div_add_mod (t + n) e
  refine ⟨(t + n) / e + 1, ?_⟩
  rw [mul_add, mul_one]
  omega

omit [DecidableEq X] in
/-- If step `t` can rewrite the coordinates in `T t` to any values, and any `m` steps in a row cover all coordinates, every
state can be reached at a logged step within `m + e` steps. -/
theorem reaches_touch {ι V : Type*} {S A : Finset (ι → V)}
    (hmix : ∀ x ∈ S, ∀ y ∈ S, ∀ z : ι → V, (∀ j, z j = x j ∨ z j = y j) → z ∈ S) (T : ℕ → Set ι) {m e : ℕ} (he : 0 < e)
    (hcov : ∀ t j, ∃ i < m, j ∈ T (t + i)) {y : ι → V} (hy : y ∈ S) (hA : y ∈ A) (t : ℕ) {x : ι → V} (hx : x ∈ S) :
    Reaches S (fun t x z => ∀ j, j ∉ T t → z j = x j) (fun t => e ∣ t + 1) A (m + e) t x := by
  classical
  obtain ⟨n, h1, h2, h3⟩ := exists_logged he t m
  refine Reaches.mono (m := n + 1) h2 hx ?_
  let z : ℕ → ι → V := fun n j => if ∃ i < n, j ∈ T (t + i) then y j else x j
  have h0 : z 0 = x := by funext j; simp [z]
  have hn : z (n + 1) = y := by
    funext j
    obtain ⟨i, hi, hj⟩ := hcov t j
    exact if_pos ⟨i, by omega, hj⟩
  rw [← h0]
  refine reaches_of_seq n t z (fun i _ => ?_) (fun i _ j hj => ?_) (by rw [hn]; exact hA) h3
  · exact hmix x hx y hy _ fun j => by dsimp only [z]; split_ifs; exacts [Or.inr rfl, Or.inl rfl]
  · dsimp only [z]
    refine if_congr ⟨?_, ?_⟩ rfl rfl
    · rintro ⟨i', hi', hj'⟩
      rcases Nat.lt_succ_iff_lt_or_eq.1 hi' with h | rfl
      · exact ⟨i', h, hj'⟩
      · exact absurd hj' hj
    · rintro ⟨i', hi', hj'⟩; exact ⟨i', by omega, hj'⟩

omit [DecidableEq X] in
/-- If walks of every length from `m` on lead to `y`, a logged step can show `y` within `m + e` steps. -/
theorem reaches_walks {R : X → X → Prop} {m e : ℕ} (he : 0 < e) {y : X} (hy : y ∈ S) (hA : y ∈ A)
    (hw : ∀ x ∈ S, ∀ n, m ≤ n → Walk S R n x y) (t : ℕ) {x : X} (hx : x ∈ S) :
    Reaches S (fun _ => R) (fun t => e ∣ t + 1) A (m + e) t x := by
  obtain ⟨n, h1, h2, h3⟩ := exists_logged he t m
  exact Reaches.mono h2 hx (reaches_of_walk hy hA n t x hx (hw x hx (n + 1) (by omega)) h3)

omit [DecidableEq X] in
/-- If steps can be taken back, walks of one parity suffice when the log interval is odd. -/
theorem reaches_odd {R : X → X → Prop} {m e : ℕ} (he : Odd e) {y : X} (hy : y ∈ S) (hA : y ∈ A)
    (hback : Walk S R 2 y y) (hw : ∀ x ∈ S, ∃ n ≤ m, Walk S R n x y) (t : ℕ) {x : X} (hx : x ∈ S) :
    Reaches S (fun _ => R) (fun t => e ∣ t + 1) A (m + 2 * e) t x := by
  obtain ⟨n, hn, hwn⟩ := hw x hx
  have hpow : ∀ i, Walk S R (n + 2 * i) x y := by
    intro i
    induction i with
    | zero => exact hwn
    | succ i ih => have := ih.trans hback; rwa [add_assoc] at this
  obtain ⟨c, hc⟩ := he
  obtain ⟨k, h1, h2, h3⟩ := exists_logged (e := e) (by omega) (t + n) 0
  -- `e ∣ t + n + (k + 1)` with `k + 1 ≤ e`; double or add `e`
  rcases Nat.even_or_odd (k + 1) with ⟨i, hi⟩ | ⟨i, hi⟩
  · have hl : e ∣ t + (n + 2 * i - 1) + 1 := by
      have : t + (n + 2 * i - 1) + 1 = t + n + k + 1 := by omega
      rwa [this]
    have hw' := hpow i
    obtain ⟨n', hn'⟩ : ∃ n', n + 2 * i = n' + 1 := ⟨n + 2 * i - 1, by omega⟩
    rw [hn'] at hw' hl
    exact Reaches.mono (by omega) hx (reaches_of_walk hy hA n' t x hx hw' (by simpa using hl))
  · have hl : e ∣ t + (n + 2 * (i + c + 1) - 1) + 1 := by
      have : t + (n + 2 * (i + c + 1) - 1) + 1 = (t + n + k + 1) + e := by omega
      rw [this]
      exact (Nat.dvd_add_right h3).2 dvd_rfl
    have hw' := hpow (i + c + 1)
    obtain ⟨n', hn'⟩ : ∃ n', n + 2 * (i + c + 1) = n' + 1 := ⟨n + 2 * (i + c + 1) - 1, by omega⟩
    rw [hn'] at hw' hl
    exact Reaches.mono (by omega) hx (reaches_of_walk hy hA n' t x hx hw' (by simpa using hl))

end Discs.Spec
