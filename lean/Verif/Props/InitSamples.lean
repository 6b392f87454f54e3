import Verif.Spec.Start
import Verif.Model.InitSamples
import Verif.Props.Convergence

/-!
# C106: initial samples, and runs that start from them
-/

namespace Discs

open Finset Spec

/-! ### Laws of runs -/

section Runs

variable {X : Type*} [DecidableEq X] {S : Finset X} {μ : X → ℝ} {K : ℕ → X → X → ℝ} {π : X → ℝ}

theorem startLaw_succ (n : ℕ) (y : X) : startLaw S μ K (n + 1) y = push S (startLaw S μ K n) (K n) y := by
  unfold startLaw push
  simp only [iterate_succ_row]
  unfold push
  simp only [Finset.mul_sum, Finset.sum_mul]
  rw [Finset.sum_comm]
  exact Finset.sum_congr rfl fun z _ => Finset.sum_congr rfl fun x _ => by ring

theorem startLaw_zero (h : IsLawOn S μ) : startLaw S μ K 0 = μ := by
  funext y
  unfold startLaw
  simp only [iterate_zero_row, mul_ite, mul_one, mul_zero, Finset.sum_ite_eq']
  split_ifs with hy
  · rfl
  · exact (h.2.2 y hy).symm

/-- C106: at every time the sample is a valid state. -/
theorem startLaw_isLaw (h : IsLawOn S μ) (hK : ∀ t, Stochastic S (K t)) (n : ℕ) : IsLawOn S (startLaw S μ K n) := by
  have hs := stochastic_iterate hK n
  refine ⟨fun y => Finset.sum_nonneg fun x hx => mul_nonneg (h.1 x) (hs.1 x hx y), ?_, fun y hy => ?_⟩
  · rw [← h.2.1]
    exact sum_push hs μ
  · exact Finset.sum_eq_zero fun x hx => by rw [hs.2.2 x hx y hy, mul_zero]

/-- C106 (convergence): the guarantee for fixed initial samples carries over to random ones. -/
theorem startLaw_converges (h : IsLawOn S μ) {m : ℕ} {c err : ℝ} (hc : ConvergesWithin S π K m c err) (n : ℕ) :
    l1 S (startLaw S μ K n) (target S π) ≤ 2 * c ^ (n / m) + err := by
  unfold l1 startLaw
  calc ∑ y ∈ S, |∑ x ∈ S, μ x * iterate S K n x y - target S π y|
      = ∑ y ∈ S, |∑ x ∈ S, μ x * (iterate S K n x y - target S π y)| := by
        refine Finset.sum_congr rfl fun y _ => ?_
        congr 1
        simp only [mul_sub, Finset.sum_sub_distrib]
        rw [← Finset.sum_mul, h.2.1, one_mul]
    _ ≤ ∑ y ∈ S, ∑ x ∈ S, μ x * |iterate S K n x y - target S π y| := by
        refine Finset.sum_le_sum fun y _ => (Finset.abs_sum_le_sum_abs _ _).trans
          (Finset.sum_le_sum fun x _ => ?_)
        rw [abs_mul, abs_of_nonneg (h.1 x)]
    _ = ∑ x ∈ S, μ x * l1 S (iterate S K n x) (target S π) := by
        rw [Finset.sum_comm]
        exact Finset.sum_congr rfl fun x _ => by rw [l1, Finset.mul_sum]
    _ ≤ ∑ x ∈ S, μ x * (2 * c ^ (n / m) + err) :=
        Finset.sum_le_sum fun x hx => mul_le_mul_of_nonneg_left (hc x hx n) (h.1 x)
    _ = _ := by rw [← Finset.sum_mul, h.2.1, one_mul]

/-- C106 (steps never hurt): a step that moves the target by at most `ε` brings the sample no further away than that. -/
theorem startLaw_nearer (h : IsLawOn S μ) (hK : ∀ t, Stochastic S (K t)) (hπ : 0 < ∑ x ∈ S, π x) {ε : ℝ} (n : ℕ)
    (hn : NearlyInvariant S π (K n) ε) :
    l1 S (startLaw S μ K (n + 1)) (target S π) ≤ l1 S (startLaw S μ K n) (target S π) + ε := by
  have h1 : l1 S (startLaw S μ K (n + 1)) (target S π)
      = l1 S (push S (startLaw S μ K n) (K n)) (target S π) := l1_congr (fun y _ => startLaw_succ n y) fun _ _ => rfl
  rw [h1]
  refine (l1_triangle S _ (push S (target S π) (K n)) _).trans (add_le_add ?_ ?_)
  · have := l1_push_le (S := S) (hK n) (ν := target S π) (δ := 0) (sum_target hπ)
      (fun x hx y _ => by rw [zero_mul]; exact (hK n).1 x hx y)
      (μ := startLaw S μ K n) (p := target S π) (by rw [(startLaw_isLaw h hK n).2.1, sum_target hπ])
    simpa using this
  · have e : l1 S (push S (target S π) (K n)) (target S π)
        = (∑ y ∈ S, |∑ x ∈ S, π x * K n x y - π y|) / ∑ x ∈ S, π x := by
      unfold l1 push target
      rw [Finset.sum_div]
      refine Finset.sum_congr rfl fun y _ => ?_
      rw [← abs_of_pos hπ, ← abs_div, abs_of_pos hπ, sub_div, Finset.sum_div]
      congr 2
      exact Finset.sum_congr rfl fun x _ => by ring
    rw [e, div_le_iff₀ hπ]
    exact hn

/-- C106 (no state is lost or overrepresented): bounds on the ratio to the target persist. -/
theorem startLaw_ratio (hK : ∀ t, Stochastic S (K t)) (hinv : ∀ t, Invariant S π (K t)) {a b : ℝ}
    (ha : ∀ x ∈ S, a * target S π x ≤ μ x) (hb : ∀ x ∈ S, μ x ≤ b * target S π x) (n : ℕ) :
    ∀ y ∈ S, a * target S π y ≤ startLaw S μ K n y ∧ startLaw S μ K n y ≤ b * target S π y := by
  intro y hy
  have hs := stochastic_iterate hK n
  have ht := push_target (invariant_iterate hinv n) y hy
  unfold push at ht
  have hc : ∀ r : ℝ, r * target S π y = ∑ x ∈ S, r * target S π x * iterate S K n x y := by
    intro r
    rw [← ht, Finset.mul_sum]
    exact Finset.sum_congr rfl fun x _ => by ring
  constructor
  · rw [hc a]
    exact Finset.sum_le_sum fun x hx => mul_le_mul_of_nonneg_right (ha x hx) (hs.1 x hx y)
  · rw [hc b]
    exact Finset.sum_le_sum fun x hx => mul_le_mul_of_nonneg_right (hb x hx) (hs.1 x hx y)

end Runs

/-! ### The initial laws -/

variable {D C : ℕ}

theorem law_of_injective {Ω X : Type*} [Fintype Ω] [DecidableEq X] {p : Ω → ℝ} {f : Ω → X} (hf : Function.Injective f)
    (ω : Ω) : law p f (f ω) = p ω := by
  classical
  unfold law
  simp only [hf.eq_iff, Finset.sum_ite_eq', Finset.mem_univ, if_true]

theorem law_isLaw {Ω X : Type*} [Fintype Ω] [DecidableEq X] {S : Finset X} {p : Ω → ℝ} (hp : IsProb p) {f : Ω → X}
    (hf : ∀ ω, f ω ∈ S) : IsLawOn S (law p f) :=
  ⟨law_nonneg hp.1 f, by rw [sum_law hf, hp.2], fun _ hy => law_eq_zero fun ω h => hy (h ▸ hf ω)⟩

theorem categRow_injective : Function.Injective (categRow (D := D) (C := C)) := fun v v' h => funext fun j => by
  have := congrFun h j
  simp only [categRow] at this
  exact Fin.ext (by exact_mod_cast this)

/-- A function into the integers is the row of the categories it names. -/
theorem exists_categRow {x : Fin D → ℤ} (hx : x ∈ validStates C D) : ∃ v : Fin D → Fin C, categRow v = x := by
  rw [mem_validStates] at hx
  refine ⟨fun j => ⟨(x j).toNat, by have := hx j; omega⟩, funext fun j => ?_⟩
  have := hx j
  simp only [categRow]
  omega

/-- C106 (`randint`): the initial sample is uniform on the state space. -/
theorem initRandint_uniform (hC : 0 < C) : IsLawOn (validStates C D) (initRandint C D) ∧
    ∀ x ∈ validStates C D, initRandint C D x = 1 / (C : ℝ) ^ D := by
  have hp : IsProb fun _ : Fin D → Fin C => ∏ _j : Fin D, 1 / (C : ℝ) := by
    refine isProb_pi (p := fun _ _ => 1 / (C : ℝ)) fun j => ⟨fun _ => by positivity, ?_⟩
    have : (C : ℝ) ≠ 0 := by positivity
    simp [this]
  refine ⟨law_isLaw hp categRow_valid, fun x hx => ?_⟩
  obtain ⟨v, rfl⟩ := exists_categRow hx
  unfold initRandint
  rw [law_of_injective categRow_injective]
  simp

/-- C106 (`bernoulli`): sites are independent, site `j` is one with probability `p j`. -/
theorem initBernoulli_spec {p : Fin D → ℝ} (hp : ∀ j, 0 ≤ p j ∧ p j ≤ 1) :
    IsLawOn (validStates 2 D) (initBernoulli p) ∧
    ∀ x ∈ validStates 2 D, initBernoulli p x = ∏ j, if x j = 1 then p j else 1 - p j := by
  refine ⟨law_isLaw (isProb_flipLaw hp) boolState_mem, fun x hx => ?_⟩
  obtain ⟨v, rfl⟩ := exists_boolState hx
  refine (law_of_injective (f := boolState) boolState_inj v).trans ?_
  unfold flipLaw
  refine Finset.prod_congr rfl fun j _ => ?_
  cases h : v j <;> simp [boolState, h]

/-- C106 (Ising, binary FHMM, graph problems): fair bits are uniform on the state space. -/
theorem initHalf_uniform (D : ℕ) : ∀ x, initHalf D x = initRandint 2 D x := by
  have h := initBernoulli_spec (D := D) (p := fun _ => 0.5) fun _ => by norm_num
  have h2 := initRandint_uniform (D := D) (C := 2) two_pos
  intro x
  by_cases hx : x ∈ validStates 2 D
  · rw [h2.2 x hx, initHalf, h.2 x hx]
    have : ∀ j : Fin D, (if x j = 1 then (0.5 : ℝ) else 1 - 0.5) = 1 / 2 := fun j => by split_ifs <;> norm_num
    rw [Finset.prod_congr rfl fun j _ => this j]
    simp
  · rw [initHalf, h.1.2.2 x hx, h2.1.2.2 x hx]

/-- C106 (`categorical`): sites are independent, the categories have probabilities proportional to the weights. -/
theorem categLog_spec {w : Fin D → Fin C → ℝ} (hw : ∀ j c, 0 ≤ w j c) (hs : ∀ j, 0 < ∑ c, w j c) :
    IsLawOn (validStates C D) (law (categLogLaw w) categRow) ∧
    ∀ v : Fin D → Fin C, law (categLogLaw w) categRow (categRow v) = ∏ j, w j (v j) / ∑ c, w j c := by
  have he : ∀ j c, (if w j c = 0 then 0 else Real.exp (Real.log (w j c))) = w j c := by
    intro j c
    split_ifs with h
    · exact h.symm
    · exact Real.exp_log (lt_of_le_of_ne (hw j c) (Ne.symm h))
  have hl : categLogLaw w = fun v => ∏ j, w j (v j) / ∑ c, w j c := by
    funext v
    simp only [categLogLaw, he]
  have hp : IsProb (categLogLaw w) := by
    rw [hl]
    refine isProb_pi (p := fun j c => w j c / ∑ c, w j c) fun j => ⟨fun c => div_nonneg (hw j c) (hs j).le, ?_⟩
    rw [← Finset.sum_div, div_self (hs j).ne']
  refine ⟨law_isLaw hp categRow_valid, fun v => ?_⟩
  rw [law_of_injective categRow_injective, hl]

/-- C106 (categorical FHMM): equal weights are uniform on the state space. -/
theorem initFhmmCateg_uniform (hC : 0 < C) (D : ℕ) : ∀ x, initFhmmCateg C D x = initRandint C D x := by
  have h := categLog_spec (D := D) (C := C) (w := fun _ _ => 1) (fun _ _ => zero_le_one)
    fun _ => by simpa using hC
  have h2 := initRandint_uniform (D := D) hC
  intro x
  by_cases hx : x ∈ validStates C D
  · rw [h2.2 x hx]
    obtain ⟨v, rfl⟩ := exists_categRow hx
    rw [initFhmmCateg, h.2 v]
    simp
  · rw [initFhmmCateg, h.1.2.2 x hx, h2.1.2.2 x hx]

/-- C106 (RBM and image network): without data the initial sample is uniform; with the mean of the data its expectation is
that mean, whatever the mean is. -/
theorem initDataMean_spec : (∀ x, initDataMean (none : Option (Fin D → ℝ)) x = initRandint 2 D x) ∧
    ∀ m : Fin D → ℝ, (∀ j, 0 ≤ m j ∧ m j ≤ 1) → IsLawOn (validStates 2 D) (initDataMean (some m)) ∧
      ∀ j, Spec.expect (validStates 2 D) (initDataMean (some m)) (fun x => (x j : ℝ)) = m j := by
  refine ⟨fun x => initHalf_uniform D x, fun m hm => ⟨(initBernoulli_spec hm).1, fun j => ?_⟩⟩
  unfold Spec.expect initDataMean initBernoulli law
  simp only [Finset.sum_mul, ite_mul, zero_mul]
  rw [Finset.sum_comm]
  have h1 : ∀ v : Fin D → Bool, ∑ y ∈ validStates 2 D,
      (if (fun j => if v j then (1 : ℤ) else 0) = y then flipLaw m v * (y j : ℝ) else 0)
      = flipLaw m v * (if v j then 1 else 0) := by
    intro v
    rw [Finset.sum_ite_eq]
    refine (if_pos (boolState_mem v)).trans ?_
    dsimp only
    split_ifs <;> simp
  rw [Finset.sum_congr rfl fun v _ => h1 v]
  have h2 : ∀ v : Fin D → Bool, flipLaw m v * (if v j then (1 : ℝ) else 0)
      = ∏ i, (if v i then m i else 1 - m i) * (if i = j then (if v i then 1 else 0) else 1) := by
    intro v
    rw [Finset.prod_mul_distrib, Finset.prod_ite_eq']
    simp [flipLaw]
  rw [Finset.sum_congr rfl fun v _ => h2 v,
    ← Fintype.prod_sum (f := fun i (b : Bool) => (if b then m i else 1 - m i) * (if i = j then (if b then 1 else 0) else 1))]
  rw [← Finset.prod_erase_mul _ _ (Finset.mem_univ j)]
  rw [Finset.prod_eq_one fun i hi => by simp [Finset.ne_of_mem_erase hi]]
  simp

/-- C106 (categorical RBM, refuted without data): the model cannot be built unless the mean of the data is given; given it,
the categories have these probabilities. -/
theorem initCategRbm_spec : initCategRbm (none : Option (Fin D → Fin C → ℝ)) = none ∧
    ∀ m : Fin D → Fin C → ℝ, (∀ j c, 0 ≤ m j c) → (∀ j, ∑ c, m j c = 1) → ∃ μ, initCategRbm (some m) = some μ ∧
      IsLawOn (validStates C D) μ ∧ ∀ v : Fin D → Fin C, μ (categRow v) = ∏ j, m j (v j) := by
  refine ⟨rfl, fun m h0 h1 => ⟨_, rfl, ?_⟩⟩
  obtain ⟨h2, h3⟩ := categLog_spec h0 fun j => by rw [h1 j]; exact one_pos
  exact ⟨h2, fun v => by rw [h3 v]; exact Finset.prod_congr rfl fun j _ => by rw [h1 j, div_one]⟩

theorem ncJoint_valid {m : ℕ} (more : Fin m → Fin C) (i : Fin (C + m)) : 0 ≤ ncJoint more i ∧ ncJoint more i < C := by
  unfold ncJoint
  refine Fin.addCases (fun c => ?_) (fun j => ?_) i
  · simp
  · simp

/-- C106 (normalised cut): the initial partition is valid; it uses every group, and every partition that does can occur;
renumbering the nodes does not change its probability. -/
theorem initNormCut_spec (hC : 0 < C) (m : ℕ) : IsLawOn (validStates C (C + m)) (initNormCut C m) ∧
    (∀ x, 0 < initNormCut C m x ↔ x ∈ validStates C (C + m) ∧ ∀ c : Fin C, ∃ j, x j = ((c : ℕ) : ℤ)) ∧
    ∀ (τ : Equiv.Perm (Fin (C + m))) x, initNormCut C m (x ∘ τ) = initNormCut C m x := by
  classical
  have hCr : (0 : ℝ) < C := by exact_mod_cast hC
  have hfac : (0 : ℝ) < ((C + m).factorial : ℝ) := by exact_mod_cast Nat.factorial_pos _
  have hpos : (0 : ℝ) < 1 / ((C : ℝ) ^ m * ((C + m).factorial : ℝ)) := by positivity
  have hp : IsProb fun _ : (Fin m → Fin C) × Equiv.Perm (Fin (C + m)) =>
      1 / ((C : ℝ) ^ m * ((C + m).factorial : ℝ)) := by
    refine ⟨fun _ => hpos.le, ?_⟩
    rw [Finset.sum_const, Finset.card_univ, Fintype.card_prod, Fintype.card_perm]
    simp only [Fintype.card_fun, Fintype.card_fin, nsmul_eq_mul, Nat.cast_mul, Nat.cast_pow]
    field_simp
  have hv : ∀ ω : (Fin m → Fin C) × Equiv.Perm (Fin (C + m)),
      (fun j => ncJoint ω.1 (ω.2 j)) ∈ validStates C (C + m) := fun ω =>
    mem_validStates.2 fun j => ncJoint_valid _ _
  refine ⟨law_isLaw hp hv, fun x => ⟨fun h => ?_, fun ⟨hx, hs⟩ => ?_⟩, fun τ x => ?_⟩
  · by_contra hne
    refine h.ne' (law_eq_zero fun ω hω => hne ?_)
    subst hω
    refine ⟨hv ω, fun c => ⟨ω.2.symm (Fin.castAdd m c), ?_⟩⟩
    simp [ncJoint]
  · choose g hg using hs
    have hgi : Function.Injective g := fun c c' h => by
      have := hg c
      rw [h, hg c'] at this
      exact Fin.ext (by exact_mod_cast this.symm)
    let e := (Equiv.ofInjective (Fin.castAdd m : Fin C → Fin (C + m)) (Fin.castAdd_injective C m)).symm.trans
      (Equiv.ofInjective g hgi)
    let τ : Equiv.Perm (Fin (C + m)) := Equiv.extendSubtype (p := fun i => i ∈ Set.range (Fin.castAdd m))
      (q := fun i => i ∈ Set.range g) e
    have hτ : ∀ c, τ (Fin.castAdd m c) = g c := by
      intro c
      have := Equiv.extendSubtype_apply_of_mem (p := fun i => i ∈ Set.range (Fin.castAdd m))
        (q := fun i => i ∈ Set.range g) e (Fin.castAdd m c) ⟨c, rfl⟩
      refine this.trans ?_
      simp only [e, Equiv.trans_apply]
      have h2 : (Equiv.ofInjective (Fin.castAdd m : Fin C → Fin (C + m)) (Fin.castAdd_injective C m)).symm
          ⟨Fin.castAdd m c, ⟨c, rfl⟩⟩ = c :=
        Equiv.ofInjective_symm_apply (Fin.castAdd_injective C m) c
      rw [h2]
      rfl
    obtain ⟨v, hvx⟩ := exists_categRow hx
    have key : (fun j => ncJoint (fun i => v (τ (Fin.natAdd C i))) (τ.symm j)) = x := by
      funext j
      obtain ⟨i, rfl⟩ := τ.surjective j
      rw [Equiv.symm_apply_apply]
      refine Fin.addCases (fun c => ?_) (fun i => ?_) i
      · rw [hτ, hg]; simp [ncJoint]
      · rw [← hvx]; simp [ncJoint, categRow]
    rw [← key]
    exact law_pos (f := fun ω : (Fin m → Fin C) × Equiv.Perm (Fin (C + m)) => fun j => ncJoint ω.1 (ω.2 j))
      (ω₀ := (fun i => v (τ (Fin.natAdd C i)), τ.symm)) hp.1 hpos
  · unfold initNormCut law
    refine Fintype.sum_equiv (Equiv.prodCongr (Equiv.refl _) (Equiv.mulRight τ⁻¹)) _ _ fun ω => ?_
    congr 1
    rw [eq_iff_iff]
    constructor
    · intro h
      funext j
      have := congrFun h (τ⁻¹ j)
      simpa using this
    · intro h
      funext j
      have := congrFun h (τ j)
      simpa using this

/-! ### Whole runs -/

/-- A uniform start differs from the target by at most the exponential of the range of the energy, both ways. -/
theorem uniform_ratio (hC : 0 < C) {f : (Fin D → ℤ) → ℝ} {a b : ℝ} (hf : ∀ x ∈ validStates C D, a ≤ f x ∧ f x ≤ b) :
    ∀ x ∈ validStates C D,
      Real.exp (a - b) * target (validStates C D) (fun x => Real.exp (f x)) x ≤ initRandint C D x ∧
      initRandint C D x ≤ Real.exp (b - a) * target (validStates C D) (fun x => Real.exp (f x)) x := by
  have hcard : ((validStates C D).card : ℝ) = (C : ℝ) ^ D := by
    simp [validStates, Fintype.card_piFinset]
  have hCp : (0 : ℝ) < (C : ℝ) ^ D := by positivity
  have hlo : (C : ℝ) ^ D * Real.exp a ≤ ∑ x ∈ validStates C D, Real.exp (f x) := by
    rw [← hcard, ← nsmul_eq_mul, ← Finset.sum_const]
    exact Finset.sum_le_sum fun x hx => Real.exp_le_exp.2 (hf x hx).1
  have hhi : ∑ x ∈ validStates C D, Real.exp (f x) ≤ (C : ℝ) ^ D * Real.exp b := by
    rw [← hcard, ← nsmul_eq_mul, ← Finset.sum_const]
    exact Finset.sum_le_sum fun x hx => Real.exp_le_exp.2 (hf x hx).2
  have hZ : 0 < ∑ x ∈ validStates C D, Real.exp (f x) := lt_of_lt_of_le (by positivity) hlo
  intro x hx
  rw [(initRandint_uniform hC).2 x hx]
  unfold target
  constructor
  · rw [mul_div_assoc', div_le_div_iff₀ hZ hCp, ← Real.exp_add, one_mul]
    refine le_trans ?_ hlo
    rw [mul_comm]
    exact mul_le_mul_of_nonneg_left (Real.exp_le_exp.2 (by linarith [(hf x hx).2])) hCp.le
  · rw [mul_div_assoc', div_le_div_iff₀ hCp hZ, ← Real.exp_add, one_mul]
    refine le_trans hhi ?_
    rw [mul_comm]
    exact mul_le_mul_of_nonneg_right (Real.exp_le_exp.2 (by linarith [(hf x hx).1])) hCp.le

/-- **C106 (Gibbs run).**  A Gibbs run from the uniform initial sample: always valid, never further from the target than
before, converging to it, and at no time does a state's probability differ from the target by more than the factor
`exp (range of the energy)`. -/
theorem gibbs_run_from_init (f : (Fin D → ℤ) → ℝ) (hC : 0 < C) (hD : 0 < D) {a b : ℝ}
    (hf : ∀ x ∈ validStates C D, a ≤ f x ∧ f x ≤ b) :
    let S := validStates C D
    let π := fun x => Real.exp (f x)
    let L := startLaw S (initRandint C D) fun t => gibbsKernel f C ((gibbsUpdate C D)^[t] gibbsInit)
    (∀ n, IsLawOn S (L n)) ∧ (∀ n, l1 S (L (n + 1)) (target S π) ≤ l1 S (L n) (target S π)) ∧
    (∃ c, 0 ≤ c ∧ c < 1 ∧ ∀ n, l1 S (L n) (target S π) ≤ 2 * c ^ (n / D)) ∧
    ∀ n, ∀ y ∈ S, Real.exp (a - b) * target S π y ≤ L n y ∧ L n y ≤ Real.exp (b - a) * target S π y := by
  intro S π L
  have h0 := (initRandint_uniform (D := D) hC).1
  have hst : ∀ t, Stochastic S (gibbsKernel f C ((gibbsUpdate C D)^[t] gibbsInit)) := fun t => gibbs_stochastic f hC _
  have hinv : ∀ t, Invariant S π (gibbsKernel f C ((gibbsUpdate C D)^[t] gibbsInit)) := fun t =>
    invariant_of_reversible (gibbs_reversible f hC _) (hst t)
  have hπ : 0 < ∑ x ∈ S, π x := by
    refine Finset.sum_pos (fun x _ => Real.exp_pos _) ⟨fun _ => 0, ?_⟩
    rw [mem_validStates]
    exact fun j => ⟨le_rfl, by exact_mod_cast hC⟩
  refine ⟨startLaw_isLaw h0 hst, fun n => ?_, ?_, startLaw_ratio hst hinv (fun x hx => (uniform_ratio hC hf x hx).1)
    fun x hx => (uniform_ratio hC hf x hx).2⟩
  · simpa using startLaw_nearer h0 hst hπ n (nearlyInvariant_zero_iff.2 (hinv n))
  · obtain ⟨c, h1, h2, h3⟩ := gibbs_converges f hC hD
    refine ⟨c, h1, h2, fun n => ?_⟩
    have := startLaw_converges h0 (h3 0) n
    simpa using this

/-- **C106 (RBM run).**  RBM block Gibbs from the mean of the data. -/
theorem rbm_run_from_init {V H : ℕ} (P : RBMParams V H) {m : Fin V → ℝ} (hm : ∀ j, 0 ≤ m j ∧ m j ≤ 1) :
    let S := validStates 2 V
    let π := fun x : Fin V → ℤ => Real.exp (rbmForward P fun i => (x i : ℝ))
    let L := startLaw S (initDataMean (some m)) fun _ => rbmKernel P
    (∀ n, IsLawOn S (L n)) ∧ (∀ n, l1 S (L (n + 1)) (target S π) ≤ l1 S (L n) (target S π)) ∧
    ∃ c, 0 ≤ c ∧ c < 1 ∧ ∀ n, l1 S (L n) (target S π) ≤ 2 * c ^ n := by
  intro S π L
  have h0 := (initDataMean_spec.2 m hm).1
  have hst := (rbm_blockgibbs_reversible P).1
  have hinv := invariant_of_reversible (rbm_blockgibbs_reversible P).2 hst
  have hπ : 0 < ∑ x ∈ S, π x := Finset.sum_pos (fun x _ => Real.exp_pos _) ⟨_, boolState_mem fun _ => false⟩
  refine ⟨startLaw_isLaw h0 fun _ => hst, fun n => ?_, ?_⟩
  · simpa using startLaw_nearer h0 (fun _ => hst) hπ n (nearlyInvariant_zero_iff.2 hinv)
  · obtain ⟨c, h1, h2, h3⟩ := rbm_converges P
    refine ⟨c, h1, h2, fun n => ?_⟩
    have := startLaw_converges h0 h3 n
    simpa using this

/-- **C106 (random-walk run).**  With the acceptance test of the code, from any valid law: a step brings the sample at
most `2e-24` further from the target. -/
theorem rw_run_from_init (adaptive : Bool) (tgt : ℝ) (f : (Fin D → ℤ) → ℝ) (hC : 2 ≤ C) (s : ℕ → RWState)
    (h0 : ∀ t, 0 ≤ (s t).radius) (h1 : ∀ t, (s t).radius ≤ D) {μ : (Fin D → ℤ) → ℝ} (hμ : IsLawOn (validStates C D) μ)
    (n : ℕ) :
    let S := validStates C D
    let L := startLaw S μ fun t => rwKernel adaptive tgt mhTiny f C (s t)
    IsLawOn S (L n) ∧ l1 S (L (n + 1)) (target S fun x => Real.exp (f x))
      ≤ l1 S (L n) (target S fun x => Real.exp (f x)) + 2 * mhTiny := by
  intro S L
  have hst : ∀ t, Stochastic S (rwKernel adaptive tgt mhTiny f C (s t)) := fun t =>
    rw_stochastic adaptive tgt mhTiny_nonneg f hC _ (h0 t) (h1 t)
  have hπ : 0 < ∑ x ∈ S, Real.exp (f x) := by
    refine Finset.sum_pos (fun x _ => Real.exp_pos _) ⟨fun _ => 0, ?_⟩
    rw [mem_validStates]
    exact fun j => ⟨le_rfl, by exact_mod_cast (by omega : 0 < C)⟩
  exact ⟨startLaw_isLaw hμ hst n, startLaw_nearer hμ hst hπ n ((rw_pathMH f hC (h0 n) (h1 n)).nearlyInvariant_step
    mhTiny_nonneg (rw_isMH adaptive tgt mhTiny f C (s n)))⟩

/-- Concrete case: an Ising pair (energy between `-1` and `1`) started from fair bits. -/
example (n : ℕ) : let f : (Fin 2 → ℤ) → ℝ := fun x => if x 0 = x 1 then 1 else -1
    startLaw (validStates 2 2) (initHalf 2) (fun t => gibbsKernel f 2 ((gibbsUpdate 2 2)^[t] gibbsInit)) n (fun _ => 1)
      ≤ Real.exp 2 * target (validStates 2 2) (fun x => Real.exp (f x)) fun _ => 1 := by
  intro f
  have hf : ∀ x ∈ validStates 2 2, (-1 : ℝ) ≤ f x ∧ f x ≤ 1 := fun x _ => by
    simp only [f]; split_ifs <;> norm_num
  have := ((gibbs_run_from_init f two_pos two_pos hf).2.2.2 n (fun _ => 1) (mem_validStates.2 fun _ => by norm_num)).2
  rw [show (1 : ℝ) - -1 = 2 by norm_num] at this
  rw [show initHalf 2 = initRandint 2 2 from funext (initHalf_uniform 2)]
  exact this

/-- Concrete case: three nodes in two groups, the partition `0, 1, 1` can be drawn, `0, 0, 0` cannot. -/
example : 0 < initNormCut 2 1 ![0, 1, 1] ∧ ¬ 0 < initNormCut 2 1 ![0, 0, 0] := by
  obtain ⟨-, h, -⟩ := initNormCut_spec (C := 2) two_pos 1
  rw [h, h]
  refine ⟨⟨mem_validStates.2 fun j => ?_, fun c => ?_⟩, fun hn => ?_⟩
  · fin_cases j <;> simp
  · fin_cases c
    · exact ⟨0, rfl⟩
    · exact ⟨1, rfl⟩
  · obtain ⟨j, hj⟩ := hn.2 1
    fin_cases j <;> simp at hj

end Discs
