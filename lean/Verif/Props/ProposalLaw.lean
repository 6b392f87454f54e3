import Verif.Props.GWG
import Verif.Props.PathAux
import Verif.Props.Gradient
import Verif.Props.LocallyBalanced

/-!
# Property C89: gradient-based proposals have the advertised law

A locally-balanced sampler proposes the neighbour `y` of `x` with probability proportional to
`g(π(y) / π(x))`.  The samplers compute log weights from gradients; on a model whose gradient scores are
exact (C32, C63) the law of the proposed change is exactly the advertised one.
-/

namespace Discs.Spec

open Finset

/-- The law with probabilities proportional to `W` of the likelihood ratios. -/
noncomputable def balancedLaw {I : Type*} [Fintype I] (W : ℝ → ℝ) (ratio : I → ℝ) (i : I) : ℝ :=
  W (ratio i) / ∑ j, W (ratio j)

/-- The sample with site `j` flipped. -/
def flipSite {D : ℕ} (x : Fin D → ℤ) (j : Fin D) : Fin D → ℤ := Function.update x j (1 - x j)

/-- The sample with site `j` relabelled. -/
def relabel {D : ℕ} (x : Fin D → ℤ) (j : Fin D) (c : ℤ) : Fin D → ℤ := Function.update x j c

end Discs.Spec

namespace Discs

open Finset Spec

variable {D : ℕ}

/-- `h` and `W` are the two scales of one of the configured weight functions. -/
structure WeightPair (name : String) (h W : ℝ → ℝ) : Prop where
  log : ∀ s, applyWeightLog name s = .ok (h s)
  lin : ∀ t, applyWeight name t = .ok (W t)

theorem weightPair_exists {name : String} (hn : name ∈ knownWeights) : ∃ h W, WeightPair name h W := by
  refine ⟨fun s => ((applyWeight_error name s).1 hn).2.choose, fun t => ((applyWeight_error name t).1 hn).1.choose,
    fun s => ((applyWeight_error name s).1 hn).2.choose_spec,
    fun t => ((applyWeight_error name t).1 hn).1.choose_spec⟩

theorem WeightPair.pos {name : String} {h W : ℝ → ℝ} (hp : WeightPair name h W) {t : ℝ} (ht : 0 < t) :
    0 < W t := by
  have hl := hp.lin t
  unfold applyWeight at hl
  split_ifs at hl <;> injection hl with hl <;> rw [← hl]
  · exact Real.sqrt_pos.2 ht
  · positivity
  · unfold clipMin; positivity
  · unfold clipMax; positivity

theorem WeightPair.exp {name : String} {h W : ℝ → ℝ} (hp : WeightPair name h W) (s : ℝ) :
    Real.exp (h s) = W (Real.exp s) := by
  have hw : applyWeightLog name (Real.log (Real.exp s)) = .ok (h s) := by rw [Real.log_exp]; exact hp.log s
  rw [applyWeight_log (Real.exp_pos s) (hp.lin _) hw, Real.exp_log (hp.pos (Real.exp_pos s))]

theorem softmax_balanced {I : Type*} [Fintype I] {name : String} {h W : ℝ → ℝ} (hp : WeightPair name h W)
    (d : I → ℝ) (i : I) : softmax (fun j => h (d j)) i = balancedLaw W (fun j => Real.exp (d j)) i := by
  unfold softmax balancedLaw
  simp only [hp.exp]

/-- **C89 (binary GWG).** With exact gradient scores each drawn site has the locally-balanced law of the
flipped samples. -/
theorem gwg_proposal_law (hD : 0 < D) {name : String} {h W : ℝ → ℝ} (hp : WeightPair name h W)
    {f : (Fin D → ℤ) → ℝ} {g : (Fin D → ℤ) → Fin D → ℝ} {x : Fin D → ℤ}
    (hg : ∀ j, (1 - 2 * (x j : ℝ)) * g x j = f (flipSite x j) - f x) (j : Fin D) :
    softmax (gwgDist h none x (g x)) j =
      balancedLaw W (fun j => Real.exp (f (flipSite x j)) / Real.exp (f x)) j := by
  have : Nonempty (Fin D) := ⟨⟨0, hD⟩⟩
  unfold gwgDist applyMask
  rw [softmax_logSoftmax, softmax_balanced hp]
  simp only [hg, Real.exp_sub]

/-- **C89 (path-auxiliary).** The same for the first site of a path. -/
theorem pafs_proposal_law (hD : 0 < D) {name : String} {h W : ℝ → ℝ} (hp : WeightPair name h W)
    {f : (Fin D → ℤ) → ℝ} {lr : (Fin D → ℤ) → Fin D → ℝ} {x : Fin D → ℤ}
    (hg : ∀ j, lr x j = f (flipSite x j) - f x) (j : Fin D) :
    Real.exp (pafsLogProb h lr none x j) =
      balancedLaw W (fun j => Real.exp (f (flipSite x j)) / Real.exp (f x)) j := by
  have : Nonempty (Fin D) := ⟨⟨0, hD⟩⟩
  unfold pafsLogProb applyMask
  rw [exp_logSoftmax, softmax_balanced hp]
  simp only [hg, Real.exp_sub]

theorem cast_flipSite (x : Fin D → ℤ) (j : Fin D) :
    (fun i => ((flipSite x j i : ℤ) : ℝ)) = Function.update (fun i => (x i : ℝ)) j (1 - x j) := by
  funext i
  unfold flipSite
  by_cases hi : i = j
  · subst hi; simp
  · simp [hi]

/-- **C89 (Bernoulli, every model).** GWG on the Bernoulli model as written: the score of a site is the
gradient of `forward`. -/
theorem gwg_bernoulli_law (hD : 0 < D) {name : String} {h W : ℝ → ℝ} (hp : WeightPair name h W)
    (p : Fin D → ℝ) (x : Fin D → ℤ) (j : Fin D) :
    softmax (gwgDist h none x (pderiv (bernForward p) fun i => (x i : ℝ))) j =
      balancedLaw W (fun j => Real.exp (bernForward p fun i => (flipSite x j i : ℝ)) /
        Real.exp (bernForward p fun i => (x i : ℝ))) j :=
  gwg_proposal_law hD hp (f := fun x => bernForward p fun i => (x i : ℝ))
    (g := fun x => pderiv (bernForward p) fun i => (x i : ℝ))
    (fun j => by rw [cast_flipSite]; exact bern_gradient_exact p (fun i => (x i : ℝ)) j) j

/-- **C89 (MIS).** GWG on the independent-set energy of a loopless graph. -/
theorem gwg_mis_law {N : ℕ} {name : String} {h W : ℝ → ℝ} (hp : WeightPair name h W) {es : List (Edge N)}
    (hl : Loopless es) (padded : ℕ) (mask : Fin (N + 1) → ℝ) (coeff T : ℝ) (x : Fin (N + 1) → ℤ)
    (j : Fin (N + 1)) :
    softmax (gwgDist h none x (pderiv (combForward (misObjective mask)
        (misPenalty (graph2edges es padded) mask coeff) T) fun i => (x i : ℝ))) j =
      balancedLaw W (fun j => Real.exp (combForward (misObjective mask)
          (misPenalty (graph2edges es padded) mask coeff) T fun i => (flipSite x j i : ℝ)) /
        Real.exp (combForward (misObjective mask) (misPenalty (graph2edges es padded) mask coeff) T
          fun i => (x i : ℝ))) j :=
  gwg_proposal_law (Nat.succ_pos N) hp (f := fun x => combForward (misObjective mask)
      (misPenalty (graph2edges es padded) mask coeff) T fun i => (x i : ℝ))
    (g := fun x => pderiv (combForward (misObjective mask)
      (misPenalty (graph2edges es padded) mask coeff) T) fun i => (x i : ℝ))
    (fun j => by rw [cast_flipSite]; exact mis_gradient_exact hl padded mask coeff T (fun i => (x i : ℝ)) j) j

/-! ## Masked sites -/

/-- **C89 (masked GWG).** Under a 0/1 mask the free sites keep their odds, and a masked site has the
weight `exp(-1e9)`, whatever its score: not zero, but the same for every model. -/
theorem gwg_masked_law (hD : 0 < D) {name : String} {h W : ℝ → ℝ} (hp : WeightPair name h W)
    {f : (Fin D → ℤ) → ℝ} {g : (Fin D → ℤ) → Fin D → ℝ} {x : Fin D → ℤ} {A : Finset (Fin D)}
    (hg : ∀ j, (1 - 2 * (x j : ℝ)) * g x j = f (flipSite x j) - f x) (j : Fin D) :
    softmax (gwgDist h (some fun j => if j ∈ A then 1 else 0) x (g x)) j =
      (if j ∈ A then W (Real.exp (f (flipSite x j)) / Real.exp (f x)) else Real.exp (-1e9)) /
        (∑ i ∈ A, W (Real.exp (f (flipSite x i)) / Real.exp (f x)) + (D - #A) * Real.exp (-1e9)) := by
  classical
  have : Nonempty (Fin D) := ⟨⟨0, hD⟩⟩
  unfold gwgDist applyMask
  rw [softmax_logSoftmax]
  unfold softmax
  have e : ∀ i, Real.exp (h ((1 - 2 * (x i : ℝ)) * g x i) * (if i ∈ A then 1 else 0) +
      -1e9 * (1 - if i ∈ A then 1 else 0)) =
      if i ∈ A then W (Real.exp (f (flipSite x i)) / Real.exp (f x)) else Real.exp (-1e9) := by
    intro i
    split_ifs with hi
    · rw [sub_self, mul_zero, add_zero, mul_one, hp.exp, hg, Real.exp_sub]
    · rw [mul_zero, zero_add, sub_zero, mul_one]
  simp only [e]
  congr 1
  rw [← Finset.sum_filter_add_sum_filter_not univ (· ∈ A)]
  congr 1
  · rw [Finset.filter_mem_eq_inter, Finset.univ_inter]
    exact Finset.sum_congr rfl fun i hi => if_pos hi
  · rw [Finset.sum_congr rfl fun i hi => if_neg (Finset.mem_filter.1 hi).2, Finset.sum_const, nsmul_eq_mul]
    congr 1
    have h1 : #(univ.filter fun i => i ∉ A) = D - #A := by
      rw [Finset.filter_not, Finset.filter_mem_eq_inter, Finset.univ_inter, Finset.card_sdiff_of_subset
        (Finset.subset_univ _), Finset.card_univ, Fintype.card_fin]
    rw [h1, Nat.cast_sub]
    simpa using Finset.card_le_univ A

/-! ## Categorical proposals -/

/-- **C89 (categorical GWG).** With exact one-hot scores the drawn pair (site, category) has weight
`W(π(y)/π(x))` if it changes the sample and `exp(-1e9) * W(1)` if it does not. -/
theorem cgwg_proposal_law {C : ℕ} {name : String} {h W : ℝ → ℝ} (hp : WeightPair name h W)
    {f : (Fin D → Fin C → ℝ) → ℝ} {g : (Fin D → Fin C → ℝ) → Fin D → Fin C → ℝ} {x : Fin D → ℤ}
    (hg : ∀ j c, g (oneHotRow C x) j c - ∑ c', g (oneHotRow C x) j c' * oneHotRow C x j c' =
      f (oneHotRow C (relabel x j ((c : ℕ) : ℤ))) - f (oneHotRow C x)) (n : Fin (D * C)) :
    softmax (cgwgDist h (oneHotRow C x) (g (oneHotRow C x))) n =
      (let w := fun n : Fin (D * C) =>
        if x n.divNat = ((n.modNat : ℕ) : ℤ) then Real.exp (-1e9) * W 1
        else W (Real.exp (f (oneHotRow C (relabel x n.divNat ((n.modNat : ℕ) : ℤ)))) /
          Real.exp (f (oneHotRow C x)))
      w n / ∑ m, w m) := by
  have : Nonempty (Fin (D * C)) := ⟨n⟩
  dsimp only
  unfold cgwgDist
  rw [softmax_logSoftmax]
  unfold softmax
  have e : ∀ m : Fin (D * C), Real.exp (h (g (oneHotRow C x) m.divNat m.modNat -
      ∑ c, g (oneHotRow C x) m.divNat c * oneHotRow C x m.divNat c) -
      oneHotRow C x m.divNat m.modNat * 1e9) =
      if x m.divNat = ((m.modNat : ℕ) : ℤ) then Real.exp (-1e9) * W 1
      else W (Real.exp (f (oneHotRow C (relabel x m.divNat ((m.modNat : ℕ) : ℤ)))) /
        Real.exp (f (oneHotRow C x))) := by
    intro m
    rw [hg, Real.exp_sub, hp.exp, Real.exp_sub]
    by_cases hm : x m.divNat = ((m.modNat : ℕ) : ℤ)
    · have h1 : oneHotRow C x m.divNat m.modNat = 1 := by
        unfold oneHotRow oneHot; rw [if_pos hm.symm]
      have h2 : relabel x m.divNat ((m.modNat : ℕ) : ℤ) = x := by
        unfold relabel; rw [← hm, Function.update_eq_self]
      rw [if_pos hm, h1, h2, div_self (Real.exp_pos _).ne', one_mul, Real.exp_neg, div_eq_inv_mul]
    · have h1 : oneHotRow C x m.divNat m.modNat = 0 := by
        unfold oneHotRow oneHot; rw [if_neg (Ne.symm hm)]
      rw [if_neg hm, h1, zero_mul, Real.exp_zero, div_one]
  simp only [e]

/-- **C89 (categorical GWG, factorised model).** -/
theorem cgwg_categ_law {C : ℕ} {name : String} {h W : ℝ → ℝ} (hp : WeightPair name h W)
    (p : Fin D → Fin C → ℝ) (x : Fin D → ℤ) (n : Fin (D * C)) :
    softmax (cgwgDist h (oneHotRow C x) (pderivRow (categNet p) (oneHotRow C x))) n =
      (let w := fun n : Fin (D * C) =>
        if x n.divNat = ((n.modNat : ℕ) : ℤ) then Real.exp (-1e9) * W 1
        else W (Real.exp (categForward p (relabel x n.divNat ((n.modNat : ℕ) : ℤ))) /
          Real.exp (categForward p x))
      w n / ∑ m, w m) := by
  refine cgwg_proposal_law hp (f := categNet p) (g := fun y => pderivRow (categNet p) y) (fun j c => ?_) n
  rw [categ_score_exact]
  congr 2
  funext i c'
  unfold oneHotRow relabel
  by_cases hi : i = j
  · subst hi; simp [oneHot, Fin.ext_iff]
  · simp [hi]

/-- **C89 (categorical path-auxiliary).** The weight of the pair (site, category) is `W(π(y)/π(x))`, and
`exp(-1e9)` for the current category. -/
theorem pafsCateg_proposal_law {C : ℕ} {name : String} {h W : ℝ → ℝ} (hp : WeightPair name h W)
    {f : (Fin D → Fin C → ℝ) → ℝ} {lr : (Fin D → Fin C → ℝ) → Fin D → Fin C → ℝ} {x : Fin D → ℤ}
    (hg : ∀ j c, lr (oneHotRow C x) j c =
      f (oneHotRow C (relabel x j ((c : ℕ) : ℤ))) - f (oneHotRow C x)) (jc : Fin D × Fin C) :
    Real.exp (pafsCategLogProb h lr none (oneHotRow C x) jc) =
      (let w := fun jc : Fin D × Fin C =>
        if x jc.1 = ((jc.2 : ℕ) : ℤ) then Real.exp (-1e9)
        else W (Real.exp (f (oneHotRow C (relabel x jc.1 ((jc.2 : ℕ) : ℤ)))) /
          Real.exp (f (oneHotRow C x)))
      w jc / ∑ kc, w kc) := by
  have : Nonempty (Fin D × Fin C) := ⟨jc⟩
  dsimp only
  unfold pafsCategLogProb
  rw [exp_logSoftmax]
  unfold softmax applyMask
  have e : ∀ kc : Fin D × Fin C, Real.exp (h (lr (oneHotRow C x) kc.1 kc.2) *
      (1 - oneHotRow C x kc.1 kc.2) + oneHotRow C x kc.1 kc.2 * -1e9) =
      if x kc.1 = ((kc.2 : ℕ) : ℤ) then Real.exp (-1e9)
      else W (Real.exp (f (oneHotRow C (relabel x kc.1 ((kc.2 : ℕ) : ℤ)))) /
        Real.exp (f (oneHotRow C x))) := by
    intro kc
    by_cases hm : x kc.1 = ((kc.2 : ℕ) : ℤ)
    · have h1 : oneHotRow C x kc.1 kc.2 = 1 := by
        unfold oneHotRow oneHot; rw [if_pos hm.symm]
      rw [if_pos hm, h1, sub_self, mul_zero, zero_add, one_mul]
    · have h1 : oneHotRow C x kc.1 kc.2 = 0 := by
        unfold oneHotRow oneHot; rw [if_neg (Ne.symm hm)]
      rw [if_neg hm, h1, zero_mul, add_zero, sub_zero, mul_one, hg, hp.exp, Real.exp_sub]
  simp only [Option.map_none, e]

/-- Instance: two independent sites, the second three (`e`-)times likelier to be one; at the all-zero
sample the `SQRT` sampler proposes its flip `exp(1/2)` times as often as the first. -/
example {h W : ℝ → ℝ} (hp : WeightPair "SQRT" h W) :
    softmax (gwgDist h none (fun _ => 0) (pderiv (bernForward ![0, 1]) fun _ : Fin 2 => ((0 : ℤ) : ℝ))) 1 =
      Real.exp (1 / 2) *
        softmax (gwgDist h none (fun _ => 0) (pderiv (bernForward ![0, 1]) fun _ : Fin 2 => ((0 : ℤ) : ℝ))) 0 := by
  have hW : ∀ s, W (Real.exp s) = Real.exp (s / 2) := by
    intro s
    have := hp.log s
    simp only [applyWeightLog, if_true, Except.ok.injEq] at this
    rw [← hp.exp, this]
  rw [gwg_bernoulli_law (by norm_num) hp _ (fun _ => 0), gwg_bernoulli_law (by norm_num) hp _ (fun _ => 0)]
  unfold balancedLaw
  simp only [← Real.exp_sub, hW]
  rw [mul_div_assoc', ← Real.exp_add]
  congr 2
  simp [bernForward, flipSite, Fin.sum_univ_two]

example : ∃ h W, WeightPair "RATIO" h W := weightPair_exists (by decide)

end Discs
