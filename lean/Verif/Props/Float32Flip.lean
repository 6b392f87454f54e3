import Verif.Props.Float32LB

/-!
# Property C108: binary DMALA and DLMC in single precision

The flip probabilities the sampler computes are an arbitrary table `P` with values in `[0, 1]`: whatever rounding does to
gradients, weights, step sizes and exponentials, the acceptance test corrects for the probabilities actually used.
-/

namespace Discs

open Finset Spec

variable {D : ℕ}

/-! ## The log-probability of the flips -/

/-- Error of one entry of the sum. -/
noncomputable def siteErr (ρ : ℝ) : ℝ := 2⁻¹ ^ 17 + 76 * ρ

theorem siteErr_nonneg {ρ : ℝ} (h : 0 ≤ ρ) : 0 ≤ siteErr ρ := by unfold siteErr; positivity

theorem llEps_pos : 0 < llEps := by unfold llEps; norm_num

theorem log_llEps : -(74 : ℝ) ≤ Real.log llEps := by
  have h1 : (1e32 : ℝ) ≤ Real.exp 74 := by
    have := Real.exp_one_gt_d9
    calc (1e32 : ℝ) ≤ (2.7182818283 : ℝ) ^ 74 := by norm_num
      _ ≤ Real.exp 1 ^ 74 := pow_le_pow_left₀ (by norm_num) this.le _
      _ = Real.exp 74 := by rw [← Real.exp_nat_mul]; norm_num
  have h2 : Real.log (1e32 : ℝ) ≤ 74 := (Real.log_le_log (by norm_num) h1).trans_eq (Real.log_exp 74)
  have h3 : Real.log (1e32 : ℝ) = -Real.log llEps := by
    rw [show (1e32 : ℝ) = llEps⁻¹ by unfold llEps; norm_num, Real.log_inv]
  linarith

/-- The logarithm of a guarded probability. -/
theorem log_guard_err {rd lg : ℝ → ℝ} (hrd : IsRound rd) {ρ : ℝ} (h0 : 0 ≤ ρ) (hlg : LogAcc ρ lg Real.log) {p z : ℝ}
    (hp : 0 ≤ p) (hp1 : p ≤ 1) (hz : |z - p| ≤ f32u * p) :
    |rd (lg (rd (z + rd llEps))) - Real.log (p + llEps)| ≤ siteErr ρ ∧ |Real.log (p + llEps)| ≤ 74 := by
  have ht := llEps_pos
  have hf : f32u = 1 / 16777216 := by unfold f32u; norm_num
  have hw : 0 < p + llEps := by linarith
  set w := p + llEps with hwd
  have hz' := abs_le.1 hz
  have r1 := abs_le.1 (hrd.rel llEps)
  rw [abs_of_pos ht] at r1
  have hv1 : w * (1 - f32u) ≤ z + rd llEps := by rw [hwd]; linarith
  have hv2 : z + rd llEps ≤ w * (1 + f32u) := by rw [hwd]; linarith
  have hpos : 0 < z + rd llEps := lt_of_lt_of_le (mul_pos hw (by rw [hf]; norm_num)) hv1
  have r2 := abs_le.1 (hrd.rel (z + rd llEps))
  rw [abs_of_pos hpos] at r2
  set v := rd (z + rd llEps) with hvd
  have hlo : w * (1 - f32u) ^ 2 ≤ v := by
    have : w * (1 - f32u) * (1 - f32u) ≤ (z + rd llEps) * (1 - f32u) :=
      mul_le_mul_of_nonneg_right hv1 (by rw [hf]; norm_num)
    nlinarith
  have hhi : v ≤ w * (1 + f32u) ^ 2 := by
    have : (z + rd llEps) * (1 + f32u) ≤ w * (1 + f32u) * (1 + f32u) :=
      mul_le_mul_of_nonneg_right hv2 (by rw [hf]; norm_num)
    nlinarith
  have hv0 : 0 < v := lt_of_lt_of_le (mul_pos hw (by rw [hf]; norm_num)) hlo
  have l1 : Real.log v ≤ Real.log w + 2⁻¹ ^ 23 := by
    have h := Real.log_le_log hv0 hhi
    rw [Real.log_mul hw.ne' (by rw [hf]; norm_num), Real.log_pow] at h
    have h2 := Real.log_le_sub_one_of_pos (x := 1 + f32u) (by rw [hf]; norm_num)
    rw [hf] at h h2
    norm_num at h h2 ⊢
    linarith
  have l2 : Real.log w - 2⁻¹ ^ 22 ≤ Real.log v := by
    have h := Real.log_le_log (mul_pos hw (by rw [hf]; norm_num)) hlo
    rw [Real.log_mul hw.ne' (by rw [hf]; norm_num), Real.log_pow] at h
    have h2 := Real.one_sub_inv_le_log_of_pos (x := 1 - f32u) (by rw [hf]; norm_num)
    rw [hf] at h h2
    norm_num at h h2 ⊢
    linarith
  have b1 : -(74 : ℝ) ≤ Real.log w := log_llEps.trans (Real.log_le_log ht (by linarith))
  have b2 : Real.log w ≤ 1 := by
    have h := Real.log_le_sub_one_of_pos hw
    have : llEps ≤ 1 := by unfold llEps; norm_num
    linarith
  refine ⟨?_, by rw [abs_le]; constructor <;> linarith⟩
  have b : |Real.log v| ≤ 75 := by
    rw [abs_le]
    constructor
    · norm_num at l2 b1 ⊢; linarith
    · norm_num at l1 ⊢; linarith
  have hl : |lg v - Real.log v| ≤ 75 * ρ := (hlg v hv0).trans (by nlinarith)
  have hl' := abs_le.1 hl
  have hb' := abs_le.1 b
  have hlv : |lg v| ≤ 75 + 75 * ρ := by rw [abs_le]; constructor <;> linarith
  have r3 := abs_le.1 ((hrd.rel (lg v)).trans (mul_le_mul_of_nonneg_left hlv f32u_pos.le))
  unfold siteErr
  rw [hf] at r3
  rw [abs_le]
  norm_num at l1 l2 r3 ⊢
  constructor <;> linarith

/-- One entry of `flipLl`. -/
noncomputable def flipTerm (p : ℝ) (b : Bool) : ℝ := if b then Real.log (p + llEps) else Real.log (1 - p + llEps)

theorem flipLl_eq (p : Fin D → ℝ) (ω : Fin D → Bool) : flipLl llEps p ω = ∑ j, flipTerm (p j) (ω j) := by
  unfold flipLl flipTerm
  refine Finset.sum_congr rfl fun j _ => ?_
  cases ω j <;> simp

theorem flipTermF_err {rd lg : ℝ → ℝ} (hrd : IsRound rd) {ρ : ℝ} (h0 : 0 ≤ ρ) (hlg : LogAcc ρ lg Real.log) {p : ℝ}
    (hp : 0 ≤ p) (hp1 : p ≤ 1) (b : Bool) :
    IsF32 (flipTermF rd lg p b) ∧ |flipTermF rd lg p b - flipTerm p b| ≤ siteErr ρ ∧ |flipTerm p b| ≤ 74 := by
  have e0 : rd 0 = 0 := hrd.exact isF32_zero
  have e1 : rd 1 = 1 := hrd.exact isF32_one
  refine ⟨hrd.f32 _, ?_⟩
  cases b
  · have h := log_guard_err hrd h0 hlg (p := 1 - p) (z := rd (1 - p)) (by linarith) (by linarith)
      (by simpa [abs_of_nonneg (sub_nonneg.2 hp1)] using hrd.rel (1 - p))
    have : flipTermF rd lg p false = rd (lg (rd (rd (1 - p) + rd llEps))) := by
      unfold flipTermF
      simp only [Bool.false_eq_true, if_false, mul_zero, e0, sub_zero, e1, mul_one, zero_add]
      exact hrd.exact (hrd.f32 _)
    rw [this]
    exact h
  · have h := log_guard_err hrd h0 hlg (p := p) (z := p) hp hp1 (by
      rw [sub_self, abs_zero]; exact mul_nonneg f32u_pos.le hp)
    have : flipTermF rd lg p true = rd (lg (rd (p + rd llEps))) := by
      unfold flipTermF
      simp only [if_true, mul_one, sub_self, e0, mul_zero, add_zero]
      exact hrd.exact (hrd.f32 _)
    rw [this]
    exact h

/-- Error of the log-probability of the flips of `D` sites. -/
noncomputable def flipErr (D : ℕ) (ρ : ℝ) : ℝ :=
  D * siteErr ρ + ((1 + f32u) ^ (D - 1) - 1) * (D * (74 + siteErr ρ))

theorem flipErr_nonneg (D : ℕ) {ρ : ℝ} (h : 0 ≤ ρ) : 0 ≤ flipErr D ρ := by
  have h1 : 1 ≤ (1 + f32u) ^ (D - 1) := one_le_pow₀ (by linarith [f32u_pos])
  have h2 := siteErr_nonneg h
  have : 0 ≤ (1 + f32u) ^ (D - 1) - 1 := by linarith
  unfold flipErr; positivity

theorem list_sum_ofFn_err {n : ℕ} {T t : Fin n → ℝ} {δ : ℝ} (h : ∀ i, |T i - t i| ≤ δ) :
    |(List.ofFn T).sum - ∑ i, t i| ≤ n * δ := by
  rw [List.sum_ofFn, ← Finset.sum_sub_distrib]
  refine (Finset.abs_sum_le_sum_abs _ _).trans ((Finset.sum_le_sum fun i _ => h i).trans (le_of_eq ?_))
  simp

theorem list_abs_ofFn_le {n : ℕ} {T : Fin n → ℝ} {B : ℝ} (h : ∀ i, |T i| ≤ B) : ((List.ofFn T).map abs).sum ≤ n * B := by
  rw [List.map_ofFn, List.sum_ofFn]
  refine (Finset.sum_le_sum fun i _ => h i).trans (le_of_eq ?_)
  simp

/-- C108 (binary DMALA and DLMC, log-probability of the flips): whatever the order of the sum, its error is at most `flipErr`,
even where the flip probability has been rounded to 0 or 1. -/
theorem flipLlF_err {rd lg : ℝ → ℝ} (hrd : IsRound rd) {ρ : ℝ} (h0 : 0 ≤ ρ) (hlg : LogAcc ρ lg Real.log) {p : Fin D → ℝ}
    (hp : ∀ j, 0 ≤ p j ∧ p j ≤ 1) {ω : Fin D → Bool} {r : ℝ} (hr : FlipLlF rd lg p ω r) :
    |r - flipLl llEps p ω| ≤ flipErr D ρ ∧ |flipLl llEps p ω| ≤ 74 * D := by
  have ht := fun j => flipTermF_err hrd h0 hlg (hp j).1 (hp j).2 (ω j)
  have hs := (SumF.err hrd hr (by
    intro t ht'
    obtain ⟨j, rfl⟩ := (List.mem_ofFn' _ _).1 ht'
    exact (ht j).1)).2
  rw [List.length_ofFn] at hs
  have h1 := list_sum_ofFn_err (T := fun j => flipTermF rd lg (p j) (ω j)) fun j => (ht j).2.1
  have h2 := list_abs_ofFn_le (T := fun j => flipTermF rd lg (p j) (ω j)) (B := 74 + siteErr ρ) fun j => by
    have a := abs_le.1 (ht j).2.1
    have b := abs_le.1 (ht j).2.2
    rw [abs_le]; constructor <;> linarith
  have hg : 0 ≤ (1 + f32u) ^ (D - 1) - 1 := by
    have : 1 ≤ (1 + f32u) ^ (D - 1) := one_le_pow₀ (by linarith [f32u_pos])
    linarith
  have h3 := hs.trans (mul_le_mul_of_nonneg_left h2 hg)
  rw [flipLl_eq]
  constructor
  · unfold flipErr
    have a := abs_le.1 h1
    have b := abs_le.1 h3
    rw [abs_le]; constructor <;> linarith
  · refine (Finset.abs_sum_le_sum_abs _ _).trans ((Finset.sum_le_sum fun j _ => (ht j).2.2).trans (le_of_eq ?_))
    simp [mul_comm]

/-! ## The flips -/

/-- C108 (drawing flips): a site flips with its probability up to one noise value. -/
theorem bernoulliG_close {M : ℕ} (hM : 0 < M) {p : ℝ} (h0 : 0 ≤ p) (h1 : p ≤ 1) :
    p ≤ bernoulliG M p ∧ bernoulliG M p ≤ min 1 (p + 1 / M) := by
  classical
  have hM' : (0 : ℝ) < M := by exact_mod_cast hM
  have : ((range M).filter fun k : ℕ => (k : ℝ) / M < p) = range (min M ⌈(M : ℝ) * p⌉₊) := by
    ext k
    rw [mem_filter, mem_range, mem_range, lt_min_iff, Nat.lt_ceil]
    refine and_congr_right fun _ => ?_
    rw [div_lt_iff₀ hM', mul_comm]
  have hle : ⌈(M : ℝ) * p⌉₊ ≤ M := Nat.ceil_le.2 (by nlinarith)
  have e : bernoulliG M p = (⌈(M : ℝ) * p⌉₊ : ℝ) / M := by
    unfold bernoulliG
    rw [← min_eq_right hle, ← card_range (min M ⌈(M : ℝ) * p⌉₊), ← this]
  rw [e, le_div_iff₀ hM', le_min_iff, div_le_one hM', div_le_iff₀ hM', add_mul, one_div, inv_mul_cancel₀ hM'.ne']
  have h2 := Nat.le_ceil ((M : ℝ) * p)
  have h3 := Nat.ceil_lt_add_one (mul_nonneg hM'.le h0)
  exact ⟨by linarith, by exact_mod_cast hle, by linarith⟩

theorem bernoulliG_mem {M : ℕ} (hM : 0 < M) {p : ℝ} (h0 : 0 ≤ p) (h1 : p ≤ 1) : 0 ≤ bernoulliG M p ∧ bernoulliG M p ≤ 1 :=
  ⟨h0.trans (bernoulliG_close hM h0 h1).1, (bernoulliG_close hM h0 h1).2.trans (min_le_left _ _)⟩

/-- The drawn flips have nearly the law the acceptance test stands for. -/
theorem flipLawG_close {M : ℕ} (hM : 0 < M) {p : Fin D → ℝ} (hp : ∀ j, 0 ≤ p j ∧ p j ≤ 1) :
    ∑ ω, |flipLaw (fun j => bernoulliG M (p j)) ω - flipLaw (fun j => guardProb llEps (p j)) ω| ≤ 2 * D * (llEps + 1 / M) := by
  refine (flipLaw_close (fun j => bernoulliG_mem hM (hp j).1 (hp j).2)
    fun j => guardProb_mem llEps_nonneg (hp j).1 (hp j).2).trans ?_
  calc ∑ j, 2 * |bernoulliG M (p j) - guardProb llEps (p j)| ≤ ∑ _j : Fin D, 2 * (llEps + 1 / M) := by
        refine Finset.sum_le_sum fun j _ => mul_le_mul_of_nonneg_left ?_ (by norm_num)
        have a := abs_le.1 (guardProb_close llEps_nonneg (hp j).1 (hp j).2)
        have b := bernoulliG_close hM (hp j).1 (hp j).2
        have c := b.2.trans (min_le_right _ _)
        have := b.1
        have : (0 : ℝ) ≤ 1 / M := by positivity
        rw [abs_le]; constructor <;> linarith
    _ = 2 * D * (llEps + 1 / M) := by simp; ring

/-! ## Runs -/

section

variable {rd lg : ℝ → ℝ} {ρ : ℝ} {f : (Fin D → ℤ) → ℝ} {F₁ F₂ : ℕ → (Fin D → ℤ) → ℝ} {P P₂ : ℕ → (Fin D → ℤ) → Fin D → ℝ}
  {Lf Lr : ℕ → (Fin D → ℤ) → (Fin D → Bool) → ℝ} {εE ζ RE : ℝ}

/-- **C108 (binary DMALA and DLMC).** In single precision, `n` steps of a sampler that flips sites with whatever probabilities
`P t x` it computed at `x` move the target by at most an explicit amount.  `P₂` are the probabilities computed at the proposal;
where they differ from those computed there as a start, the difference in log-probability is at most `ζ`. -/
theorem flipF_run (hrd : IsRound rd) (h0 : 0 ≤ ρ) (hlg : LogAcc ρ lg Real.log)
    (hP : ∀ t x j, 0 ≤ P t x j ∧ P t x j ≤ 1) (hP₂ : ∀ t x j, 0 ≤ P₂ t x j ∧ P₂ t x j ≤ 1) (hζ : 0 ≤ ζ)
    (hPP : ∀ t, ∀ x ∈ validStates 2 D, ∀ ω, |flipLl llEps (P₂ t x) ω - flipLl llEps (P t x) ω| ≤ ζ)
    (hLf : ∀ t x ω, FlipLlF rd lg (P t x) ω (Lf t x ω))
    (hLr : ∀ t x ω, FlipLlF rd lg (P₂ t (flipSites x ω)) ω (Lr t x ω)) (hεE : 0 ≤ εE) (hRE : 0 ≤ RE)
    (h1 : ∀ t, ∀ x ∈ validStates 2 D, |F₁ t x - f x| ≤ εE) (h2 : ∀ t, ∀ x ∈ validStates 2 D, |F₂ t x - f x| ≤ εE)
    (hE : ∀ x ∈ validStates 2 D, |f x| ≤ RE) {M : ℕ} (hM : 0 < M) (n : ℕ) :
    NearlyInvariant (validStates 2 D) (fun x => Real.exp (f x))
      (iterate (validStates 2 D) (fun t => lbKernelF M rd lg (fun x => flipLaw fun j => bernoulliG M (P t x j)) (F₁ t) (F₂ t)
        (Lf t) (Lr t) flipSites) n)
      (n * (2 * ((Real.exp (lbErr εE (flipErr D ρ + ζ) RE (74 * D) ρ) - 1) + mhTiny + 1 / M) +
        2 * D * (llEps + 1 / M))) := by
  refine lbF_run (q := fun t x => flipLaw fun j => guardProb llEps (P t x j)) (rev := fun _ _ ω => ω)
    (lf := fun t x ω => flipLl llEps (P t x) ω) (lr := fun t x ω => flipLl llEps (P t (flipSites x ω)) ω)
    (fun t => flip_pathMH llEps_nonneg f (hP t) fun x j =>
      ⟨by linarith [(hP t x j).1, llEps_pos], by linarith [(hP t x j).2, llEps_pos]⟩)
    hrd h0 hlg (fun t x _ => isProb_flipLaw fun j => bernoulliG_mem hM (hP t x j).1 (hP t x j).2)
    (fun t x hx ω _ => flipSites_valid hx ω) (fun t x _ => flipLawG_close hM (hP t x)) hεE
    (add_nonneg (flipErr_nonneg D h0) hζ) hRE (by positivity) h1 h2 (fun t x hx ω _ => ?_) (fun t x hx ω _ => ?_) hE hM n
  · have := flipLlF_err hrd h0 hlg (hP t x) (hLf t x ω)
    exact ⟨by linarith [this.1], this.2⟩
  · have a := flipLlF_err hrd h0 hlg (hP₂ t (flipSites x ω)) (hLr t x ω)
    have c := hPP t (flipSites x ω) (flipSites_valid hx ω) ω
    have d : |flipLl llEps (P t (flipSites x ω)) ω| ≤ 74 * D := by
      rw [flipLl_eq]
      refine (Finset.abs_sum_le_sum_abs _ _).trans ((Finset.sum_le_sum fun j _ =>
        (flipTermF_err hrd h0 hlg (hP t _ j).1 (hP t _ j).2 (ω j)).2.2).trans (le_of_eq ?_))
      simp [mul_comm]
    refine ⟨(abs_sub_le _ (flipLl llEps (P₂ t (flipSites x ω)) ω) _).trans (add_le_add a.1 c), d⟩

/-- **C108 (binary DMALA and DLMC, the errors do not accumulate).** With computed flip probabilities in `[a, 1 - a]` the run
converges to the target, down to an explicit floor. -/
theorem flipF_converges (hrd : IsRound rd) (h0 : 0 ≤ ρ) (hlg : LogAcc ρ lg Real.log) {a : ℝ} (ha : 0 < a) (ha2 : a ≤ 1 / 2)
    (hP : ∀ t x j, 0 ≤ P t x j ∧ P t x j ≤ 1)
    (hPa : ∀ t, ∀ x ∈ validStates 2 D, ∀ j, a ≤ P t x j ∧ P t x j ≤ 1 - a)
    (hP₂ : ∀ t x j, 0 ≤ P₂ t x j ∧ P₂ t x j ≤ 1) (hζ : 0 ≤ ζ)
    (hPP : ∀ t, ∀ x ∈ validStates 2 D, ∀ ω, |flipLl llEps (P₂ t x) ω - flipLl llEps (P t x) ω| ≤ ζ)
    (hLf : ∀ t x ω, FlipLlF rd lg (P t x) ω (Lf t x ω))
    (hLr : ∀ t x ω, FlipLlF rd lg (P₂ t (flipSites x ω)) ω (Lr t x ω)) (hεE : 0 ≤ εE) (hRE : 0 ≤ RE)
    (h1 : ∀ t, ∀ x ∈ validStates 2 D, |F₁ t x - f x| ≤ εE) (h2 : ∀ t, ∀ x ∈ validStates 2 D, |F₂ t x - f x| ≤ εE)
    (hE : ∀ x ∈ validStates 2 D, |f x| ≤ RE) {M : ℕ} (hM : 0 < M) :
    ConvergesWithin (validStates 2 D) (fun x => Real.exp (f x))
      (fun t => lbKernelF M rd lg (fun x => flipLaw fun j => bernoulliG M (P t x j)) (F₁ t) (F₂ t) (Lf t) (Lr t) flipSites)
      1 (1 - a ^ D)
      ((2 * ((Real.exp (lbErr εE (flipErr D ρ + ζ) RE (74 * D) ρ) - 1) + mhTiny + 1 / M) +
        2 * D * (llEps + 1 / M)) / a ^ D) := by
  have hfl : ∀ t, ∀ x ∈ validStates 2 D, ∀ ω, a ^ D ≤ flipLaw (fun j => guardProb llEps (P t x j)) ω := by
    intro t x hx ω
    refine pow_le_prod ha.le fun j => ?_
    have := floor_guard llEps_nonneg ha2 (hPa t x hx j).1 (hPa t x hx j).2
    split_ifs <;> linarith
  refine lbF_converges (q := fun t x => flipLaw fun j => guardProb llEps (P t x j)) (rev := fun _ _ ω => ω)
    (lf := fun t x ω => flipLl llEps (P t x) ω) (lr := fun t x ω => flipLl llEps (P t (flipSites x ω)) ω)
    (fun t => flip_pathMH llEps_nonneg f (hP t) fun x j =>
      ⟨by linarith [(hP t x j).1, llEps_pos], by linarith [(hP t x j).2, llEps_pos]⟩)
    hrd h0 hlg (fun t x _ => isProb_flipLaw fun j => bernoulliG_mem hM (hP t x j).1 (hP t x j).2)
    (fun t x hx ω _ => flipSites_valid hx ω) (by have := llEps_nonneg; positivity)
    (fun t x _ => flipLawG_close hM (hP t x)) hεE
    (add_nonneg (flipErr_nonneg D h0) hζ) hRE (by positivity) h1 h2 (fun t x hx ω _ => ?_) (fun t x hx ω _ => ?_) hE hM
    (by positivity) (pow_le_one₀ ha.le (by linarith)) fun t x hx y hy => ?_
  · have := flipLlF_err hrd h0 hlg (hP t x) (hLf t x ω)
    exact ⟨by linarith [this.1], this.2⟩
  · have a := flipLlF_err hrd h0 hlg (hP₂ t (flipSites x ω)) (hLr t x ω)
    have c := hPP t (flipSites x ω) (flipSites_valid hx ω) ω
    have d : |flipLl llEps (P t (flipSites x ω)) ω| ≤ 74 * D := by
      rw [flipLl_eq]
      refine (Finset.abs_sum_le_sum_abs _ _).trans ((Finset.sum_le_sum fun j _ =>
        (flipTermF_err hrd h0 hlg (hP t _ j).1 (hP t _ j).2 (ω j)).2.2).trans (le_of_eq ?_))
      simp [mul_comm]
    refine ⟨(abs_sub_le _ (flipLl llEps (P₂ t (flipSites x ω)) ω) _).trans (add_le_add a.1 c), d⟩
  · refine ⟨fun j => decide (x j ≠ y j), funext fun j => ?_, hfl t x hx _, hfl t y hy _⟩
    have h1 := mem_validStates_two.1 hx j
    have h2 := mem_validStates_two.1 hy j
    unfold flipSites
    by_cases hxy : x j = y j
    · simp [hxy]
    · simp [hxy]; omega

end

end Discs
