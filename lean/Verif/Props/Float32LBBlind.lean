import Verif.Props.Float32Categ
import Verif.Props.Float32Runs

/-!
# Property C108: what single precision loses

Adding a constant to the energy does not change the target, but in single precision it removes the log-probabilities from
`ll_y + ll_y2x - ll_x - ll_x2y`.
-/

namespace Discs

open Finset Spec

/-- Single-precision numbers near `2 ^ 26` are multiples of 4. -/
theorem round_absorbs_lt {rd : ℝ → ℝ} (hrd : IsRound rd) {b : ℝ} (hb : |b| < 2) : rd (2 ^ 26 + b) = 2 ^ 26 := by
  have h := (hrd (2 ^ 26 + b)).2 (2 ^ 26) ⟨2 ^ 24, 2, by norm_num, by norm_num⟩
  obtain ⟨⟨k, e, hk, hr⟩, -⟩ := hrd (2 ^ 26 + b)
  have h' := abs_le.1 (h.trans_eq (by rw [add_sub_cancel_left] : |(2 ^ 26 + b : ℝ) - 2 ^ 26| = |b|))
  have hb' := abs_lt.1 hb
  have hk' : |(k : ℝ)| ≤ 2 ^ 24 := by exact_mod_cast hk
  rcases le_or_gt e 1 with he | he
  · have h2 : (2 : ℝ) ^ e ≤ 2 := by
      calc (2 : ℝ) ^ e ≤ 2 ^ (1 : ℤ) := zpow_le_zpow_right₀ (by norm_num) he
        _ = 2 := by norm_num
    have h0 : (0 : ℝ) < 2 ^ e := by positivity
    have : rd (2 ^ 26 + b) ≤ 2 ^ 25 := by
      rw [hr]
      have := (abs_le.1 hk').2
      nlinarith
    linarith
  · obtain ⟨j, rfl⟩ : ∃ j : ℕ, e = 2 + j := ⟨(e - 2).toNat, by omega⟩
    have h4 : rd (2 ^ 26 + b) = ((4 * (k * 2 ^ j) : ℤ) : ℝ) := by
      rw [hr, zpow_add₀ (by norm_num), zpow_natCast]
      push_cast
      norm_num
      ring
    rw [h4] at h' ⊢
    have i1 : (4 * (k * 2 ^ j) : ℤ) < 2 ^ 26 + 4 := by
      have : ((4 * (k * 2 ^ j) : ℤ) : ℝ) < ((2 ^ 26 + 4 : ℤ) : ℝ) := by push_cast; push_cast at h'; linarith
      exact_mod_cast this
    have i2 : (2 ^ 26 - 4 : ℤ) < 4 * (k * 2 ^ j) := by
      have : ((2 ^ 26 - 4 : ℤ) : ℝ) < ((4 * (k * 2 ^ j) : ℤ) : ℝ) := by push_cast; push_cast at h'; linarith
      exact_mod_cast this
    have : (4 * (k * 2 ^ j) : ℤ) = 2 ^ 26 := by omega
    rw [this]
    norm_num

/-- C108 (what is lost): between samples of energy `2 ^ 26` the computed log acceptance ratio does not depend on the
log-probability of the reverse draws. -/
theorem lbLogAccF_blind {rd : ℝ → ℝ} (hrd : IsRound rd) {b e : ℝ} (hb : |b| < 2) (he : IsF32 e) :
    lbLogAccF rd (2 ^ 26) b (2 ^ 26) e = -e := by
  unfold lbLogAccF
  rw [round_absorbs_lt hrd hb, sub_self, hrd.exact isF32_zero, zero_sub]
  exact hrd.exact he.neg

/-- C108 (what is lost): there every proposal is accepted. -/
theorem lbStepF_blind {X Ω : Type*} {rd lg : ℝ → ℝ} (hrd : IsRound rd) {ρ : ℝ} (h0 : 0 ≤ ρ) (hρ : ρ ≤ 2⁻¹ ^ 10)
    (hlg : LogAcc ρ lg Real.log) {Lf Lr : X → Ω → ℝ} {move : X → Ω → X} {x : X} {ω : Ω} (hr : |Lr x ω| < 2)
    (hf : IsF32 (Lf x ω)) (hf0 : Lf x ω ≤ -(1 / 8)) {u : ℝ} (hu : 0 ≤ u) (hu1 : u < 1) :
    lbStepF rd lg (fun _ => 2 ^ 26) (fun _ => 2 ^ 26) Lf Lr move x ω u = move x ω := by
  refine if_pos ((bernoulliLogpF_near hrd h0 hlg hu hu1 _).1 ?_)
  rw [lbLogAccF_blind hrd hr hf]
  unfold bernoulliLogp
  have ht := mhTiny_pos
  have h1 := Real.log_le_sub_one_of_pos (x := u + mhTiny) (by linarith)
  have h2 : mhTiny ≤ 1 / 100 := by unfold mhTiny; norm_num
  have h3 : logErr ρ ≤ 1 / 16 := by unfold logErr; norm_num at hρ ⊢; linarith
  linarith

/-- Flip probabilities at the two states of a single site. -/
noncomputable def blindProb (x : Fin 1 → ℤ) (_ : Fin 1) : ℝ := if x 0 = 0 then 1 / 4 else 1 / 2

theorem blindProb_mem (x : Fin 1 → ℤ) (j : Fin 1) : 1 / 4 ≤ blindProb x j ∧ blindProb x j ≤ 1 / 2 := by
  unfold blindProb; split_ifs <;> norm_num

/-- The log-probability of one flip or no flip is between `-3/2` and `-1/4`. -/
theorem flipLlF_one {rd lg : ℝ → ℝ} (hrd : IsRound rd) {ρ : ℝ} (h0 : 0 ≤ ρ) (hρ : ρ ≤ 2⁻¹ ^ 10)
    (hlg : LogAcc ρ lg Real.log) {p : Fin 1 → ℝ} (hp : ∀ j, 1 / 4 ≤ p j ∧ p j ≤ 1 / 2) {ω : Fin 1 → Bool} {r : ℝ}
    (hr : FlipLlF rd lg p ω r) : IsF32 r ∧ |r| < 2 ∧ r ≤ -(1 / 8) := by
  have hp0 := hp 0
  have ht := flipTermF_err hrd h0 hlg (p := p 0) (by linarith) (by linarith) (ω 0)
  have e : r = flipTermF rd lg (p 0) (ω 0) := by
    refine (SumF.short hrd hr ?_).2.1 _ (by simp [List.ofFn_succ])
    intro t ht'
    obtain ⟨j, rfl⟩ := (List.mem_ofFn' _ _).1 ht'
    exact hrd.f32 _
  have hs : siteErr ρ ≤ 1 / 12 := by unfold siteErr; norm_num at hρ ⊢; linarith
  have hl : ∀ v : ℝ, 1 / 4 ≤ v → v ≤ 77 / 100 → -(1.4 : ℝ) ≤ Real.log v ∧ Real.log v ≤ -(23 / 100) := by
    intro v h1 h2
    constructor
    · have a := Real.log_le_log (by norm_num) h1
      have b : Real.log (1 / 4) = -(2 * Real.log 2) := by
        rw [show (1 / 4 : ℝ) = (2 ^ 2)⁻¹ by norm_num, Real.log_inv, Real.log_pow]; norm_num
      have c := Real.log_two_lt_d9
      rw [b] at a
      linarith
    · have := Real.log_le_sub_one_of_pos (x := v) (by linarith)
      linarith
  have hE : llEps ≤ 1 / 100 := by unfold llEps; norm_num
  have hE0 := llEps_pos
  have hb : -(1.4 : ℝ) ≤ flipTerm (p 0) (ω 0) ∧ flipTerm (p 0) (ω 0) ≤ -(23 / 100) := by
    unfold flipTerm
    split_ifs
    · exact hl _ (by linarith) (by linarith)
    · exact hl _ (by linarith) (by linarith)
  rw [e]
  have := abs_le.1 ht.2.1
  refine ⟨ht.1, by rw [abs_lt]; constructor <;> linarith, by linarith⟩

theorem law_flip_one (p : Fin 1 → ℝ) (x y : Fin 1 → ℤ) : law (flipLaw p) (flipSites x) y =
    (if flipSites x (fun _ => true) = y then p 0 else 0) + if flipSites x (fun _ => false) = y then 1 - p 0 else 0 := by
  unfold law
  rw [← (Equiv.funUnique (Fin 1) Bool).symm.sum_comp, Fintype.sum_bool]
  have e : ∀ b, (Equiv.funUnique (Fin 1) Bool).symm b = fun _ => b := fun b =>
    funext fun j => by rw [Subsingleton.elim j 0]; rfl
  simp [flipLaw, e]

section

variable {rd lg : ℝ → ℝ} {ρ : ℝ} {Lf Lr : (Fin 1 → ℤ) → (Fin 1 → Bool) → ℝ} {M : ℕ}

theorem blind_kernel (hrd : IsRound rd) (h0 : 0 ≤ ρ) (hρ : ρ ≤ 2⁻¹ ^ 10) (hlg : LogAcc ρ lg Real.log) (hM : 0 < M)
    (hLf : ∀ x ω, FlipLlF rd lg (blindProb x) ω (Lf x ω))
    (hLr : ∀ x ω, FlipLlF rd lg (blindProb (flipSites x ω)) ω (Lr x ω)) (x y : Fin 1 → ℤ) :
    lbKernelF M rd lg (fun x => flipLaw fun j => bernoulliG M (blindProb x j)) (fun _ => 2 ^ 26) (fun _ => 2 ^ 26) Lf Lr
      flipSites x y = law (flipLaw fun j => bernoulliG M (blindProb x j)) (flipSites x) y := by
  have hM' : (0 : ℝ) < M := by exact_mod_cast hM
  unfold lbKernelF lawG law
  refine Finset.sum_congr rfl fun ω _ => ?_
  have key : ∀ k ∈ range M, lbStepF rd lg (fun _ => 2 ^ 26) (fun _ => 2 ^ 26) Lf Lr flipSites x ω ((k : ℝ) / M) =
      flipSites x ω := by
    intro k hk
    have h1 := flipLlF_one hrd h0 hρ hlg (blindProb_mem x) (hLf x ω)
    have h2 := flipLlF_one hrd h0 hρ hlg (blindProb_mem (flipSites x ω)) (hLr x ω)
    refine lbStepF_blind hrd h0 hρ hlg h2.2.1 h1.1 h1.2.2 (by positivity) ?_
    rw [div_lt_one hM']
    exact_mod_cast mem_range.1 hk
  by_cases h : flipSites x ω = y
  · rw [@Finset.filter_true_of_mem _ _ (_) _ fun k hk => (key k hk).trans h, card_range, div_self hM'.ne', if_pos h, mul_one]
  · rw [@Finset.filter_false_of_mem _ _ (_) _ fun k hk he => h ((key k hk).symm.trans he), card_empty, if_neg h]
    simp

/-- **C108, refuted without a bound on the energies.** A single site with the uniform target, flipped with probability 1/4 in
one state and 1/2 in the other.  With energy 0 everywhere one step keeps the target up to 1/500; with energy `2 ^ 26`
everywhere, which is the same target, one step moves it by at least 1/8, because every proposal is accepted. -/
theorem flipF_blind (hrd : IsRound rd) (h0 : 0 ≤ ρ) (hρ : ρ ≤ 2⁻¹ ^ 20) (hlg : LogAcc ρ lg Real.log)
    (hLf : ∀ x ω, FlipLlF rd lg (blindProb x) ω (Lf x ω))
    (hLr : ∀ x ω, FlipLlF rd lg (blindProb (flipSites x ω)) ω (Lr x ω)) :
    NearlyInvariant (validStates 2 1) (fun _ => 1) (lbKernelF noiseSize rd lg
      (fun x => flipLaw fun j => bernoulliG noiseSize (blindProb x j)) (fun _ => 0) (fun _ => 0) Lf Lr flipSites) (1 / 500) ∧
    ¬ NearlyInvariant (validStates 2 1) (fun _ => 1) (lbKernelF noiseSize rd lg
      (fun x => flipLaw fun j => bernoulliG noiseSize (blindProb x j)) (fun _ => 2 ^ 26) (fun _ => 2 ^ 26) Lf Lr
      flipSites) (1 / 8) := by
  have hM : 0 < noiseSize := by unfold noiseSize; norm_num
  have hP : ∀ (x : Fin 1 → ℤ) j, 0 ≤ blindProb x j ∧ blindProb x j ≤ 1 := fun x j => by
    have := blindProb_mem x j; constructor <;> linarith
  constructor
  · have h := flipF_run (f := fun _ => 0) (F₁ := fun _ _ => 0) (F₂ := fun _ _ => 0) (P := fun _ => blindProb)
      (P₂ := fun _ => blindProb) (Lf := fun _ => Lf) (Lr := fun _ => Lr) (εE := 0) (ζ := 0) (RE := 0) hrd h0 hlg
      (fun _ => hP) (fun _ => hP) le_rfl (fun _ x _ ω => by simp) (fun _ => hLf) (fun _ => hLr) le_rfl le_rfl
      (fun _ x _ => by simp) (fun _ x _ => by simp) (fun x _ => by simp) hM 1
    have e : ∀ x ∈ validStates 2 1, ∀ y, iterate (validStates 2 1) (fun _ => lbKernelF noiseSize rd lg
        (fun x => flipLaw fun j => bernoulliG noiseSize (blindProb x j)) (fun _ => 0) (fun _ => 0) Lf Lr flipSites) 1 x y =
        lbKernelF noiseSize rd lg (fun x => flipLaw fun j => bernoulliG noiseSize (blindProb x j)) (fun _ => 0) (fun _ => 0)
          Lf Lr flipSites x y := by
      intro x hx y
      simp [iterate, comp, hx]
    unfold NearlyInvariant at h ⊢
    simp only [Real.exp_zero] at h
    refine (le_of_eq ?_).trans (h.trans (mul_le_mul_of_nonneg_right ?_ (by positivity)))
    · refine Finset.sum_congr rfl fun y _ => ?_
      congr 2
      exact Finset.sum_congr rfl fun x hx => by rw [e x hx y]
    · have hf : flipErr 1 ρ = siteErr ρ := by simp [flipErr]
      have hs : siteErr ρ ≤ 1 / 12000 := by unfold siteErr; norm_num at hρ ⊢; linarith
      have hl : lbErr 0 (flipErr 1 ρ + 0) 0 (74 * (1 : ℕ)) ρ ≤ 1 / 2500 := by
        rw [hf]; unfold lbErr logErr; norm_num at hρ ⊢; linarith
      have hx : Real.exp (lbErr 0 (flipErr 1 ρ + 0) 0 (74 * (1 : ℕ)) ρ) ≤ 1 + 1 / 1250 := by
        refine (Real.exp_le_exp.2 hl).trans ?_
        have := Real.exp_bound_div_one_sub_of_interval (x := 1 / 2500) (by norm_num) (by norm_num)
        refine this.trans (by norm_num)
      have ht : mhTiny ≤ 1 / 10 ^ 6 := by unfold mhTiny; norm_num
      have hE : llEps ≤ 1 / 10 ^ 6 := by unfold llEps; norm_num
      have c2 : (1 : ℝ) / (noiseSize : ℝ) ≤ 1 / 10 ^ 6 := by unfold noiseSize; norm_num
      push_cast at hx ⊢
      linarith
  · have hρ' : ρ ≤ 2⁻¹ ^ 10 := hρ.trans (by norm_num)
    unfold NearlyInvariant
    simp only [blind_kernel hrd h0 hρ' hlg hM hLf hLr, sum_valid_one, law_flip_one]
    have e1 : flipSites ![0] (fun _ => true) = ![1] := by decide
    have e2 : flipSites ![0] (fun _ => false) = ![0] := by decide
    have e3 : flipSites ![1] (fun _ => true) = ![0] := by decide
    have e4 : flipSites ![1] (fun _ => false) = ![1] := by decide
    have e5 : (![0] : Fin 1 → ℤ) ≠ ![1] := by decide
    have b0 : blindProb ![0] 0 = 1 / 4 := by simp [blindProb]
    have b1 : blindProb ![1] 0 = 1 / 2 := by simp [blindProb]
    simp only [e1, e2, e3, e4, e5, e5.symm, if_true, if_false, b0, b1, one_mul, zero_add, add_zero]
    have c0 := (bernoulliG_close hM (p := 1 / 4) (by norm_num) (by norm_num)).2.trans (min_le_right _ _)
    have c1 := (bernoulliG_close hM (p := 1 / 2) (by norm_num) (by norm_num)).1
    have c2 : (1 : ℝ) / (noiseSize : ℝ) ≤ 1 / 16 := by unfold noiseSize; norm_num
    intro h
    have d := le_abs_self (1 - bernoulliG noiseSize (1 / 4) + bernoulliG noiseSize (1 / 2) - 1)
    have d' := neg_abs_le (bernoulliG noiseSize (1 / 4) + (1 - bernoulliG noiseSize (1 / 2)) - 1)
    linarith

end

/-! ## Instances -/

/-- Sums of any list can be computed. -/
theorem exists_sumF (rd : ℝ → ℝ) : ∀ l : List ℝ, ∃ r, SumF rd l r
  | [] => ⟨0, .nil⟩
  | a :: l => by
    obtain ⟨r, hr⟩ := exists_sumF rd l
    exact ⟨_, .add (.one a) hr (List.Perm.refl _)⟩

/-- Instance for `flipF_blind` and `flipF_run`: roundings, logarithms and computed log-probabilities exist. -/
example : ∃ (rd lg : ℝ → ℝ) (Lf Lr : (Fin 1 → ℤ) → (Fin 1 → Bool) → ℝ), IsRound rd ∧ LogAcc (2⁻¹ ^ 20) lg Real.log ∧
    (∀ x ω, FlipLlF rd lg (blindProb x) ω (Lf x ω)) ∧ ∀ x ω, FlipLlF rd lg (blindProb (flipSites x ω)) ω (Lr x ω) := by
  obtain ⟨rd, hrd⟩ := exists_isRound
  choose s hs using exists_sumF rd
  refine ⟨rd, fun v => rd (Real.log v), _, _, hrd, fun v _ => (hrd.rel _).trans ?_, fun x ω => hs _, fun x ω => hs _⟩
  exact mul_le_mul_of_nonneg_right (by unfold f32u; norm_num) (abs_nonneg _)

/-- Instance for `gwgF_run`: two sites, equal log-probabilities. -/
example : ∃ rd lg : ℝ → ℝ, ∃ W : Fin 2 → ℝ, IsRound rd ∧ LogAcc (2⁻¹ ^ 20) lg Real.log ∧ (∀ j, IsF32 (W j)) ∧
    (∀ j, |W j - logSoftmax W j| ≤ 1 / 10) ∧ (∀ j, |logSoftmax W j| ≤ 1) ∧ ∀ idx : Fin 3 → Fin 2, ∃ r, GwgLlF rd W idx r := by
  obtain ⟨rd, hrd⟩ := exists_isRound
  have e : ∀ j : Fin 2, logSoftmax (fun _ : Fin 2 => (-(11 / 16) : ℝ)) j = -Real.log 2 := by
    intro j
    unfold logSoftmax logsumexp
    simp only [Finset.sum_const, card_univ, Fintype.card_fin, nsmul_eq_mul]
    rw [Real.log_mul (by norm_num) (Real.exp_pos _).ne', Real.log_exp]
    push_cast
    ring
  have h1 := Real.log_two_gt_d9
  have h2 := Real.log_two_lt_d9
  refine ⟨rd, fun v => rd (Real.log v), fun _ => -(11 / 16), hrd, fun v _ => (hrd.rel _).trans ?_, fun _ => ?_, fun j => ?_,
    fun j => ?_, fun idx => exists_sumF rd _⟩
  · exact mul_le_mul_of_nonneg_right (by unfold f32u; norm_num) (abs_nonneg _)
  · exact ⟨-11, -4, by norm_num, by norm_num⟩
  · rw [e, abs_le]; constructor <;> linarith
  · rw [e, abs_le]; constructor <;> linarith

/-- Instance for `categF_run` and `categF_converges`: two sites of two categories, uniform draws. -/
example : ∃ rd : ℝ → ℝ, IsRound rd ∧ (∀ j c, |(fun _ _ => -(11 / 16) : Fin 2 → Fin 2 → ℝ) j c -
      logSoftmax ((fun _ _ => 0 : Fin 2 → Fin 2 → ℝ) j) c| ≤ 1 / 10) ∧
    (∀ j c, (1 : ℝ) / 2 ≤ softmax ((fun _ _ => 0 : Fin 2 → Fin 2 → ℝ) j) c) ∧
    ∀ v : Fin 2 → Fin 2, ∃ r, CategLlF rd (fun _ _ => -(11 / 16)) (oneHotRow 2 (categRow v)) r := by
  obtain ⟨rd, hrd⟩ := exists_isRound
  have h1 := Real.log_two_gt_d9
  have h2 := Real.log_two_lt_d9
  refine ⟨rd, hrd, fun j c => ?_, fun j c => ?_, fun v => exists_sumF rd _⟩
  · have e : logSoftmax (fun _ : Fin 2 => (0 : ℝ)) c = -Real.log 2 := by
      unfold logSoftmax logsumexp; simp
    show |(-(11 / 16) : ℝ) - logSoftmax (fun _ : Fin 2 => (0 : ℝ)) c| ≤ _
    rw [e, abs_le]; constructor <;> linarith
  · unfold softmax; simp

end Discs
