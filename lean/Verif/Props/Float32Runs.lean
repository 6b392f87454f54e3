import Verif.Props.Float32Energy

/-!
# Property C107: random-walk runs on concrete models in single precision, and what goes wrong
-/

namespace Discs

open Finset Spec

variable {D N m : ℕ}

/-! ## Bernoulli models -/

theorem bernForward_range (p : Fin D → ℝ) {x y : Fin D → ℤ} (hx : x ∈ validStates 2 D) (hy : y ∈ validStates 2 D) :
    |bernForward p (fun j => y j) - bernForward p (fun j => x j)| ≤ ∑ j, |p j| := by
  unfold bernForward
  rw [← Finset.sum_sub_distrib]
  refine (Finset.abs_sum_le_sum_abs _ _).trans (Finset.sum_le_sum fun j _ => ?_)
  have h1 := (mem_validStates.1 hx) j
  have h2 := (mem_validStates.1 hy) j
  have e1 : x j = 0 ∨ x j = 1 := by omega
  have e2 : y j = 0 ∨ y j = 1 := by omega
  rcases e1 with e1 | e1 <;> rcases e2 with e2 | e2 <;> simp [e1, e2]

/-- C107 (Bernoulli model): a run of the random walk whose energies are computed in single precision, in any order, from
single-precision parameters. -/
theorem bern_rwF_run {rd lg : ℝ → ℝ} (hrd : IsRound rd) {ρ : ℝ} (h0 : 0 ≤ ρ) (hlg : LogAcc ρ lg Real.log) {p : Fin D → ℝ}
    (hp : ∀ j, IsF32 (p j)) {F₁ F₂ : ℕ → (Fin D → ℤ) → ℝ}
    (h1 : ∀ t, ∀ x ∈ validStates 2 D, BernForwardF rd p (fun j => x j) (F₁ t x))
    (h2 : ∀ t, ∀ x ∈ validStates 2 D, BernForwardF rd p (fun j => x j) (F₂ t x)) {r : ℕ → ℝ} (hr0 : ∀ t, 0 ≤ r t)
    (hr1 : ∀ t, r t ≤ D) {M : ℕ} (hM : 0 < M) (n : ℕ) :
    NearlyInvariant (validStates 2 D) (fun x => Real.exp (bernForward p fun j => x j))
      (iterate (validStates 2 D) (fun t => rwKernelF M rd lg (F₁ t) (F₂ t) 2 (r t)) n)
      (n * (2 * ((Real.exp (rwErr (((1 + 2⁻¹ ^ 24) ^ (D - 1) - 1) * ∑ j, |p j|) (∑ j, |p j|) ρ) - 1) + mhTiny + 1 / M))) := by
  have hS : 0 ≤ ∑ j, |p j| := Finset.sum_nonneg fun _ _ => abs_nonneg _
  have hg : (1 : ℝ) ≤ (1 + 2⁻¹ ^ 24) ^ (D - 1) := one_le_pow₀ (by norm_num)
  exact rwF_run hrd h0 hlg le_rfl (mul_nonneg (by linarith) hS) hS (fun t x hx => bernForwardF_err hrd hp hx (h1 t x hx))
    (fun t x hx => bernForwardF_err hrd hp hx (h2 t x hx)) (fun x hx y hy => bernForward_range p hx hy) hr0 hr1 hM n

/-! ## Graph problems at temperature one -/

theorem cast01 {n : ℕ} {x : Fin n → ℤ} (hx : x ∈ validStates 2 n) (v : Fin n) : (x v : ℝ) = 0 ∨ (x v : ℝ) = 1 := by
  have h1 := (mem_validStates.1 hx) v
  have e1 : x v = 0 ∨ x v = 1 := by omega
  rcases e1 with e | e <;> rw [e] <;> simp

theorem maxcutObjective_range (A : EdgeArrays N m) {x y : Fin (N + 1) → ℝ} (hx : ∀ v, x v = 0 ∨ x v = 1)
    (hy : ∀ v, y v = 0 ∨ y v = 1) : |maxcutObjective A y - maxcutObjective A x| ≤ ∑ i, |A.edgeWeight i| := by
  unfold maxcutObjective
  simp only
  rw [← Finset.sum_sub_distrib]
  refine (Finset.abs_sum_le_sum_abs _ _).trans (Finset.sum_le_sum fun i _ => ?_)
  have key : ∀ {x : Fin (N + 1) → ℝ}, (∀ v, x v = 0 ∨ x v = 1) →
      (1 - (x (A.edgeFrom i) * 2 - 1) * (x (A.edgeTo i) * 2 - 1)) / 2 = 0 ∨
        (1 - (x (A.edgeFrom i) * 2 - 1) * (x (A.edgeTo i) * 2 - 1)) / 2 = 1 := by
    intro x hx
    rcases hx (A.edgeFrom i) with e | e <;> rcases hx (A.edgeTo i) with e' | e' <;> rw [e, e'] <;> norm_num
  rcases key hx with e | e <;> rcases key hy with e' | e' <;> rw [e, e'] <;> simp

/-- C107 (MaxCut): with whole edge weights of total at most `2 ^ 24` the energies of a run at temperature `1` are exact, so only
the acceptance test contributes an error. -/
theorem maxcut_rwF_run {rd lg : ℝ → ℝ} (hrd : IsRound rd) {ρ : ℝ} (h0 : 0 ≤ ρ) (hlg : LogAcc ρ lg Real.log)
    {A : EdgeArrays N m} {w : Fin m → ℤ} (hw : ∀ i, A.edgeWeight i = w i) (hb : ∑ i, |w i| ≤ 2 ^ 24)
    {F₁ F₂ : ℕ → (Fin (N + 1) → ℤ) → ℝ}
    (h1 : ∀ t, ∀ x ∈ validStates 2 (N + 1), CombForwardF rd (MaxcutObjectiveF rd A) NoPenaltyF 1 (fun v => (x v : ℝ)) (F₁ t x))
    (h2 : ∀ t, ∀ x ∈ validStates 2 (N + 1), CombForwardF rd (MaxcutObjectiveF rd A) NoPenaltyF 1 (fun v => (x v : ℝ)) (F₂ t x))
    {r : ℕ → ℝ} (hr0 : ∀ t, 0 ≤ r t) (hr1 : ∀ t, r t ≤ (N + 1 : ℕ)) {M : ℕ} (hM : 0 < M) (n : ℕ) :
    NearlyInvariant (validStates 2 (N + 1)) (fun x => Real.exp (combForward (maxcutObjective A) noPenalty 1 fun v => (x v : ℝ)))
      (iterate (validStates 2 (N + 1)) (fun t => rwKernelF M rd lg (F₁ t) (F₂ t) 2 (r t)) n)
      (n * (2 * ((Real.exp (rwErr 0 (∑ i, |A.edgeWeight i|) ρ) - 1) + mhTiny + 1 / M))) := by
  refine rwF_run hrd h0 hlg le_rfl le_rfl (Finset.sum_nonneg fun _ _ => abs_nonneg _) (fun t x hx => ?_) (fun t x hx => ?_)
    (fun x hx y hy => ?_) hr0 hr1 hM n
  · rw [(maxcutForwardF hrd hw hb (cast01 hx) (h1 t x hx)).2 rfl, sub_self, abs_zero]
  · rw [(maxcutForwardF hrd hw hb (cast01 hx) (h2 t x hx)).2 rfl, sub_self, abs_zero]
  · have := maxcutObjective_range A (cast01 hx) (cast01 hy)
    simpa [combForward, noPenalty] using this

theorem mis_range (A : EdgeArrays N m) {mask : Fin (N + 1) → ℝ} (hm : ∀ v, mask v = 0 ∨ mask v = 1)
    (he : ∀ i, A.edgeMask i = 0 ∨ A.edgeMask i = 1) {c : ℝ} (hc : 0 ≤ c) {x y : Fin (N + 1) → ℝ}
    (hx : ∀ v, x v = 0 ∨ x v = 1) (hy : ∀ v, y v = 0 ∨ y v = 1) :
    |combForward (misObjective mask) (misPenalty A mask c) 1 y - combForward (misObjective mask) (misPenalty A mask c) 1 x| ≤
      (N + 1) + c * m := by
  have h01 : ∀ {t : ℝ}, t = 0 ∨ t = 1 → 0 ≤ t ∧ t ≤ 1 := fun h => by rcases h with rfl | rfl <;> norm_num
  have hO : ∀ {x : Fin (N + 1) → ℝ}, (∀ v, x v = 0 ∨ x v = 1) → 0 ≤ misObjective mask x ∧ misObjective mask x ≤ N + 1 := by
    intro x hx
    unfold misObjective
    refine ⟨Finset.sum_nonneg fun v _ => (h01 (mul01 (hx v) (hm v))).1, ?_⟩
    refine (Finset.sum_le_sum fun v _ => (h01 (mul01 (hx v) (hm v))).2).trans ?_
    simp
  have hP : ∀ {x : Fin (N + 1) → ℝ}, (∀ v, x v = 0 ∨ x v = 1) → 0 ≤ misPenalty A mask c x ∧ misPenalty A mask c x ≤ c * m := by
    intro x hx
    have ht := fun i => mul01 (mul01 (mul01 (hx (A.edgeFrom i)) (hm (A.edgeFrom i)))
      (mul01 (hx (A.edgeTo i)) (hm (A.edgeTo i)))) (he i)
    unfold misPenalty
    simp only
    refine ⟨mul_nonneg hc (Finset.sum_nonneg fun i _ => (h01 (ht i)).1), mul_le_mul_of_nonneg_left ?_ hc⟩
    refine (Finset.sum_le_sum fun i _ => (h01 (ht i)).2).trans ?_
    simp
  have a1 := hO hx
  have a2 := hO hy
  have b1 := hP hx
  have b2 := hP hy
  unfold combForward
  rw [div_one, div_one, abs_le]
  constructor <;> linarith

/-- C107 (maximum independent set, whole penalty): the same. -/
theorem mis_rwF_run {rd lg : ℝ → ℝ} (hrd : IsRound rd) {ρ : ℝ} (h0 : 0 ≤ ρ) (hlg : LogAcc ρ lg Real.log)
    {A : EdgeArrays N m} {c : ℕ} (hc : N + 1 + c * m ≤ 2 ^ 24) (hc0 : 0 < c) {mask : Fin (N + 1) → ℝ}
    (hm : ∀ v, mask v = 0 ∨ mask v = 1) (he : ∀ i, A.edgeMask i = 0 ∨ A.edgeMask i = 1)
    {F₁ F₂ : ℕ → (Fin (N + 1) → ℤ) → ℝ}
    (h1 : ∀ t, ∀ x ∈ validStates 2 (N + 1),
      CombForwardF rd (MisObjectiveF rd mask) (MisPenaltyF rd A mask c) 1 (fun v => (x v : ℝ)) (F₁ t x))
    (h2 : ∀ t, ∀ x ∈ validStates 2 (N + 1),
      CombForwardF rd (MisObjectiveF rd mask) (MisPenaltyF rd A mask c) 1 (fun v => (x v : ℝ)) (F₂ t x))
    {r : ℕ → ℝ} (hr0 : ∀ t, 0 ≤ r t) (hr1 : ∀ t, r t ≤ (N + 1 : ℕ)) {M : ℕ} (hM : 0 < M) (n : ℕ) :
    NearlyInvariant (validStates 2 (N + 1))
      (fun x => Real.exp (combForward (misObjective mask) (misPenalty A mask c) 1 fun v => (x v : ℝ)))
      (iterate (validStates 2 (N + 1)) (fun t => rwKernelF M rd lg (F₁ t) (F₂ t) 2 (r t)) n)
      (n * (2 * ((Real.exp (rwErr 0 ((N + 1) + c * m) ρ) - 1) + mhTiny + 1 / M))) := by
  refine rwF_run hrd h0 hlg le_rfl le_rfl (by positivity) (fun t x hx => ?_) (fun t x hx => ?_)
    (fun x hx y hy => mis_range A hm he (Nat.cast_nonneg c) (cast01 hx) (cast01 hy)) hr0 hr1 hM n
  · rw [misForwardF_exact hrd hc hc0 hm he (cast01 hx) (h1 t x hx), sub_self, abs_zero]
  · rw [misForwardF_exact hrd hc hc0 hm he (cast01 hx) (h2 t x hx), sub_self, abs_zero]

/-! ## Without a bound on the parameters the claim fails -/

/-- Two numbers can only be added in one way. -/
theorem SumF.short {rd : ℝ → ℝ} (hrd : IsRound rd) {l : List ℝ} {r : ℝ} (h : SumF rd l r) (hl : ∀ t ∈ l, IsF32 t) :
    (l = [] → r = 0) ∧ (∀ a, l = [a] → r = a) ∧ ∀ a b, l.Perm [a, b] → r = rd (a + b) := by
  induction h with
  | nil => exact ⟨fun _ => rfl, fun a h => by simp at h, fun a b h => by simpa using h.length_eq⟩
  | one t => exact ⟨fun h => by simp at h, fun a h => by simpa using h, fun a b h => by simpa using h.length_eq⟩
  | @add l l' l'' a b ha hb hp iha ihb =>
    have hl1 : ∀ t ∈ l, IsF32 t := fun t ht => hl t (hp.mem_iff.2 (List.mem_append_left _ ht))
    have hl2 : ∀ t ∈ l', IsF32 t := fun t ht => hl t (hp.mem_iff.2 (List.mem_append_right _ ht))
    obtain ⟨a0, a1, a2⟩ := iha hl1
    obtain ⟨b0, b1, b2⟩ := ihb hl2
    have fa := (SumF.err hrd ha hl1).1
    have fb := (SumF.err hrd hb hl2).1
    refine ⟨fun h => ?_, fun c h => ?_, fun c d h => ?_⟩
    · subst h
      have : l ++ l' = [] := List.Perm.eq_nil hp.symm
      rw [List.append_eq_nil_iff] at this
      rw [a0 this.1, b0 this.2, add_zero, hrd.exact isF32_zero]
    · subst h
      have h1 : l ++ l' = [c] := List.perm_singleton.1 hp.symm
      rcases List.append_eq_singleton_iff.1 h1 with ⟨e1, e2⟩ | ⟨e1, e2⟩
      · rw [a0 e1, b1 c e2, zero_add, hrd.exact (hl2 c (by simp [e2]))]
      · rw [a1 c e1, b0 e2, add_zero, hrd.exact (hl1 c (by simp [e1]))]
    · have hperm : (l ++ l').Perm [c, d] := hp.symm.trans h
      have hlen := hperm.length_eq
      rw [List.length_append] at hlen
      simp only [List.length_cons, List.length_nil] at hlen
      rcases Nat.eq_zero_or_pos l.length with e1 | e1
      · obtain rfl : l = [] := List.length_eq_zero_iff.1 e1
        rw [a0 rfl, zero_add, hrd.exact fb]
        exact b2 c d (by simpa using hperm)
      rcases Nat.eq_zero_or_pos l'.length with e2 | e2
      · obtain rfl : l' = [] := List.length_eq_zero_iff.1 e2
        rw [b0 rfl, add_zero, hrd.exact fa]
        exact a2 c d (by simpa using hperm)
      obtain ⟨s, rfl⟩ := List.length_eq_one_iff.1 (by omega : l.length = 1)
      obtain ⟨t, rfl⟩ := List.length_eq_one_iff.1 (by omega : l'.length = 1)
      rw [a1 s rfl, b1 t rfl]
      have : s + t = c + d := by simpa using hperm.sum_eq
      rw [this]

/-- `2 ^ 25 + 1` is not a single-precision number; the nearest one is `2 ^ 25`. -/
theorem round_absorbs {rd : ℝ → ℝ} (hrd : IsRound rd) : rd (2 ^ 25 + 1) = 2 ^ 25 := by
  have hb := (hrd (2 ^ 25 + 1)).2 (2 ^ 25) ⟨2 ^ 24, 1, by norm_num, by norm_num⟩
  obtain ⟨⟨k, e, hk, hr⟩, -⟩ := hrd (2 ^ 25 + 1)
  have hb' := abs_le.1 (hb.trans_eq (by norm_num : |(2 ^ 25 + 1 : ℝ) - 2 ^ 25| = 1))
  have hk' : |(k : ℝ)| ≤ 2 ^ 24 := by exact_mod_cast hk
  rcases le_or_gt e 1 with he | he
  · have h2 : (2 : ℝ) ^ e ≤ 2 := by
      calc (2 : ℝ) ^ e ≤ 2 ^ (1 : ℤ) := zpow_le_zpow_right₀ (by norm_num) he
        _ = 2 := by norm_num
    have h0 : (0 : ℝ) < 2 ^ e := by positivity
    have : rd (2 ^ 25 + 1) ≤ 2 ^ 25 := by
      rw [hr]
      have := (abs_le.1 hk').2
      nlinarith
    linarith
  · obtain ⟨j, rfl⟩ : ∃ j : ℕ, e = 2 + j := ⟨(e - 2).toNat, by omega⟩
    have h4 : rd (2 ^ 25 + 1) = ((4 * (k * 2 ^ j) : ℤ) : ℝ) := by
      rw [hr, zpow_add₀ (by norm_num), zpow_natCast]
      push_cast
      norm_num
      ring
    rw [h4] at hb' ⊢
    have i1 : (4 * (k * 2 ^ j) : ℤ) ≤ 2 ^ 25 + 2 := by
      have : ((4 * (k * 2 ^ j) : ℤ) : ℝ) ≤ ((2 ^ 25 + 2 : ℤ) : ℝ) := by push_cast; push_cast at hb'; linarith
      exact_mod_cast this
    have i2 : (2 ^ 25 : ℤ) ≤ 4 * (k * 2 ^ j) := by
      have : ((2 ^ 25 : ℤ) : ℝ) ≤ ((4 * (k * 2 ^ j) : ℤ) : ℝ) := by push_cast; push_cast at hb'; linarith
      exact_mod_cast this
    have : (4 * (k * 2 ^ j) : ℤ) = 2 ^ 25 := by omega
    rw [this]
    norm_num

/-- C107 as stated is false without a bound on the size of the parameters: with log-odds `2 ^ 25` and `1` (both exact in single
precision) the computed energy does not depend on the second site while the first is on, however it is computed, although the
two samples differ by a factor `e` in probability. -/
theorem bernForwardF_blind : ∃ p : Fin 2 → ℝ, (∀ j, IsF32 (p j)) ∧
    (∀ rd, IsRound rd → ∀ r r', BernForwardF rd p ![1, 0] r → BernForwardF rd p ![1, 1] r' → r = r') ∧
    bernForward p ![1, 1] - bernForward p ![1, 0] = 1 := by
  have f25 : IsF32 (2 ^ 25) := ⟨2 ^ 24, 1, by norm_num, by norm_num⟩
  refine ⟨![2 ^ 25, 1], fun j => ?_, fun rd hrd r r' h h' => ?_, ?_⟩
  · fin_cases j
    · exact f25
    · exact isF32_one
  · have hf : ∀ x : Fin 2 → ℝ, ∀ t ∈ List.ofFn fun j => rd (x j * (![2 ^ 25, 1] : Fin 2 → ℝ) j), IsF32 t := by
      intro x t ht
      obtain ⟨i, rfl⟩ := (List.mem_ofFn' _ _).1 ht
      exact hrd.f32 _
    have e := (SumF.short hrd h (hf _)).2.2 _ _ (List.Perm.of_eq (by simp [List.ofFn_succ]; exact ⟨rfl, rfl⟩))
    have e' := (SumF.short hrd h' (hf _)).2.2 _ _ (List.Perm.of_eq (by simp [List.ofFn_succ]; exact ⟨rfl, rfl⟩))
    rw [hrd.exact f25, hrd.exact isF32_zero, add_zero, hrd.exact f25] at e
    rw [hrd.exact f25, hrd.exact isF32_one, round_absorbs hrd] at e'
    rw [e, e']
  · simp [bernForward, Fin.sum_univ_two]

/-- What the blindness does to a chain: two samples with equal computed energies are exchanged with equal probabilities in both
directions, whatever their true energies. -/
theorem rwKernelF_symm {rd lg : ℝ → ℝ} {F : (Fin D → ℤ) → ℝ} {C : ℕ} {radius : ℝ} {M : ℕ} {x y : Fin D → ℤ}
    (hx : x ∈ validStates C D) (hy : y ∈ validStates C D) (hF : F x = F y) :
    rwKernelF M rd lg F F C radius x y = rwKernelF M rd lg F F C radius y x := by
  classical
  rcases eq_or_ne x y with rfl | hxy
  · rfl
  have key : ∀ {x y : Fin D → ℤ}, x ≠ y → F x = F y → rwKernelF M rd lg F F C radius x y =
      ∑ d, rwDrawLaw C D radius d * (if rwPropose (C := C) x d = y then
        (((range M).filter fun k : ℕ => bernoulliLogpF rd lg ((k : ℝ) / M) (rd 0)).card : ℝ) / M else 0) := by
    intro x y hxy hF
    unfold rwKernelF lawG
    refine Finset.sum_congr rfl fun d _ => ?_
    congr 1
    by_cases h : rwPropose (C := C) x d = y
    · rw [if_pos h]
      congr 3
      ext k
      simp only [Finset.mem_filter]
      refine and_congr_right fun _ => ?_
      show (if bernoulliLogpF rd lg ((k : ℝ) / M) (rd (F (rwPropose (C := C) x d) - F x)) then rwPropose (C := C) x d else x) = y ↔ _
      rw [h, ← hF, sub_self]
      split_ifs with hc
      · simp [hc]
      · simp [hc, hxy]
    · rw [if_neg h]
      refine div_eq_zero_iff.2 (Or.inl ?_)
      rw [Nat.cast_eq_zero, Finset.card_eq_zero]
      refine Finset.eq_empty_of_forall_notMem fun k hk => ?_
      have he : (if bernoulliLogpF rd lg ((k : ℝ) / M) (rd (F (rwPropose (C := C) x d) - F x)) then rwPropose (C := C) x d
        else x) = y := (@Finset.mem_filter _ _ (_) _ _).1 hk |>.2
      split_ifs at he
      · exact h he
      · exact hxy he
  rw [key hxy hF, key hxy.symm hF.symm]
  refine Fintype.sum_equiv (Function.Involutive.toPerm rwRev fun d => rwRev_rwRev d) _ _ fun d => ?_
  show _ = rwDrawLaw C D radius (rwRev d) * _
  rw [rwDrawLaw_rev]
  congr 1
  refine if_congr ⟨fun h => ?_, fun h => ?_⟩ rfl rfl
  · rw [← h]
    exact rwPropose_rev hx d
  · have := rwPropose_rev hy (rwRev d)
    have h' : rwPropose y (rwRev d) = x := h
    rw [h', rwRev_rwRev] at this
    exact this

/-- C107, refuted without a bound on the parameters: the chain gives the two samples of `bernForwardF_blind` equal weight. -/
theorem bern_rwF_blind : ∃ p : Fin 2 → ℝ, (∀ j, IsF32 (p j)) ∧
    (∀ rd lg, IsRound rd → ∀ F : (Fin 2 → ℤ) → ℝ, (∀ x ∈ validStates 2 2, BernForwardF rd p (fun j => x j) (F x)) →
      ∀ M radius, rwKernelF M rd lg F F 2 radius ![1, 0] ![1, 1] = rwKernelF M rd lg F F 2 radius ![1, 1] ![1, 0]) ∧
    Real.exp (bernForward p ![1, 1]) = Real.exp 1 * Real.exp (bernForward p ![1, 0]) := by
  obtain ⟨p, hp, hb, hd⟩ := bernForwardF_blind
  have h1 : (![1, 0] : Fin 2 → ℤ) ∈ validStates 2 2 := by
    rw [mem_validStates]; intro j; fin_cases j <;> simp
  have h2 : (![1, 1] : Fin 2 → ℤ) ∈ validStates 2 2 := by
    rw [mem_validStates]; intro j; fin_cases j <;> simp
  refine ⟨p, hp, fun rd lg hrd F hF M radius => rwKernelF_symm h1 h2 ?_, ?_⟩
  · refine hb rd hrd _ _ ?_ ?_
    · have := hF _ h1
      convert this using 2 with j
      fin_cases j <;> simp
    · have := hF _ h2
      convert this using 2 with j
      fin_cases j <;> simp
  · rw [← Real.exp_add]
    congr 1
    linarith

/-! ## Instances -/

/-- Rounding to nearest exists. -/
theorem exists_isRound : ∃ rd, IsRound rd := by
  suffices h : ∀ z, ∃ r, Rounds z r by
    choose rd hrd using h
    exact ⟨rd, hrd⟩
  intro z
  rcases eq_or_ne z 0 with rfl | hz
  · exact ⟨0, isF32_zero, fun s _ => by simp⟩
  have hp : 0 < |z| := abs_pos.2 hz
  set k := Int.log 2 |z| with hk
  have hlo : (2 : ℝ) ^ k ≤ |z| := by exact_mod_cast Int.zpow_log_le_self (R := ℝ) (b := 2) (by norm_num) hp
  have hhi : |z| < (2 : ℝ) ^ (k + 1) := by exact_mod_cast Int.lt_zpow_succ_log_self (R := ℝ) (b := 2) (by norm_num) |z|
  set s : ℝ := 2 ^ (k - 23) with hs
  have hs0 : 0 < s := zpow_pos (by norm_num) _
  have e1 : (2 : ℝ) ^ k = s * 2 ^ 23 := by
    rw [hs, show k = (k - 23) + 23 by ring, zpow_add₀ (by norm_num)]
    congr 1
    · congr 1; ring
  have e2 : (2 : ℝ) ^ (k + 1) = s * 2 ^ 24 := by
    rw [zpow_add₀ (by norm_num), e1]; norm_num; ring
  have hmul : ∀ n : ℤ, |z - round (z / s) * s| ≤ |z - n * s| := by
    intro n
    have h := round_le (z / s) n
    have a1 : z - round (z / s) * s = (z / s - round (z / s)) * s := by field_simp
    have a2 : z - n * s = (z / s - n) * s := by field_simp
    rw [a1, a2, abs_mul, abs_mul]
    exact mul_le_mul_of_nonneg_right h (abs_nonneg _)
  refine ⟨round (z / s) * s, ⟨round (z / s), k - 23, ?_, rfl⟩, ?_⟩
  · have h1 : |z / s| < 2 ^ 24 := by
      rw [abs_div, abs_of_pos hs0, div_lt_iff₀ hs0, mul_comm, ← e2]; exact hhi
    have h2 : |((round (z / s) : ℤ) : ℝ)| < 2 ^ 24 + 1 := by
      have := abs_sub_abs_le_abs_sub ((round (z / s) : ℤ) : ℝ) (z / s)
      rw [abs_sub_comm] at this
      have := abs_sub_round (z / s)
      linarith
    have h3 : |round (z / s)| < 2 ^ 24 + 1 := by exact_mod_cast h2
    omega
  · rintro t ⟨m, e, hm, rfl⟩
    rcases le_or_gt (k - 23) e with he | he
    · obtain ⟨j, hj⟩ : ∃ j : ℕ, e = (k - 23) + j := ⟨(e - (k - 23)).toNat, by omega⟩
      have := hmul (m * 2 ^ j)
      rw [hj, zpow_add₀ (by norm_num), zpow_natCast]
      refine this.trans (le_of_eq ?_)
      push_cast
      congr 1
      ring
    · have ht : |(m : ℝ) * 2 ^ e| ≤ 2 ^ k := by
        rw [abs_mul, abs_of_pos (zpow_pos (by norm_num : (0 : ℝ) < 2) e)]
        have hm' : |(m : ℝ)| ≤ 2 ^ 24 := by exact_mod_cast hm
        calc |(m : ℝ)| * 2 ^ e ≤ 2 ^ 24 * 2 ^ (k - 24) :=
              mul_le_mul hm' (zpow_le_zpow_right₀ (by norm_num) (by omega)) (by positivity) (by norm_num)
          _ = 2 ^ k := by
              rw [show k - 24 = k + (-24) by ring, zpow_add₀ (by norm_num)]
              norm_num
              ring
      have h1 : |z| - 2 ^ k ≤ |z - m * 2 ^ e| := by
        have := abs_sub_abs_le_abs_sub z (m * 2 ^ e)
        linarith
      refine le_trans ?_ h1
      rcases lt_or_gt_of_ne hz with hn | hn
      · have := hmul (-(2 ^ 23))
        rw [abs_of_neg hn] at hlo ⊢
        refine this.trans (le_of_eq ?_)
        rw [e1] at hlo ⊢
        push_cast
        rw [abs_of_nonpos (by linarith)]
        ring
      · have := hmul (2 ^ 23)
        rw [abs_of_pos hn] at hlo ⊢
        refine this.trans (le_of_eq ?_)
        rw [e1] at hlo ⊢
        push_cast
        rw [abs_of_nonneg (by linarith)]
        ring

/-- Instance for C107: a rounding, a logarithm correct to the last place, and a computed energy. -/
example : ∃ rd lg : ℝ → ℝ, IsRound rd ∧ LogAcc (2⁻¹ ^ 24) lg Real.log ∧
    BernForwardF rd ![1, -2, 3] (fun j => ((![1, 0, 1] : Fin 3 → ℤ) j : ℝ)) 4 := by
  obtain ⟨rd, hrd⟩ := exists_isRound
  refine ⟨rd, fun v => rd (Real.log v), hrd, fun v _ => hrd.rel _, ?_⟩
  have i0 := hrd.exact isF32_zero
  have i1 := hrd.exact isF32_one
  have i3 := hrd.int (n := 3) (by norm_num)
  have i4 := hrd.int (n := 4) (by norm_num)
  push_cast at i3 i4
  have h : SumF rd [1, 0, 3] (rd (1 + rd (0 + 3))) :=
    SumF.add (SumF.one 1) (SumF.add (SumF.one 0) (SumF.one 3) (List.Perm.refl _)) (List.Perm.refl _)
  rw [zero_add, i3, show (1 : ℝ) + 3 = 4 by norm_num, i4] at h
  unfold BernForwardF
  convert h
  simp [List.ofFn_succ, i0, i1, i3]

end Discs
