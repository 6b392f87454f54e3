import Verif.Props.BuildTarget
import Verif.Props.Convergence
import Verif.Props.Lattice
import Verif.Props.Comb
import Verif.Props.NormCut
import Verif.Model.BuildModel

/-!
# C111: which distribution a sampler keeps for a model

The samplers do not all evaluate a model in the same way.  If the evaluations agree, every sound sampler keeps
`exp ∘ forward`; the Ising model is the case in which they do not.
-/

namespace Discs

open Finset Spec

namespace Spec

/-- All ways of evaluating the model give the log-likelihood `forward` of the sample. -/
def Coherent {D C : ℕ} (M : ModelIface D C) : Prop :=
  ∀ x ∈ validStates C D,
    (C = 2 → M.val x = M.f x ∧ ∀ g ∈ M.nb, (g x).1 = M.f x) ∧
    (C ≠ 2 → M.valHot (oneHotRow C x) = M.f x ∧ ∀ g ∈ M.nbHot, (g (oneHotRow C x)).1 = M.f x)

end Spec

/-- For a coherent model the energy a built sampler works with is the log-likelihood. -/
theorem coherent_energy {c : RunCfg} {b : Built} (hb : buildSampler c = .ok b) {D C : ℕ} (hcats : b.cats = C)
    {M : ModelIface D C} (hM : Coherent M) {st : SamplerState} {K : (Fin D → ℤ) → (Fin D → ℤ) → ℝ}
    (hK : b.cls.kernel M st = some K) {x : Fin D → ℤ} (hx : x ∈ validStates C D) :
    energy b.cls M x = M.f x := by
  have hcon := (build_consistent hb).2.2
  rw [hcats] at hcon
  obtain ⟨h2, hn⟩ := hM x hx
  revert hK
  revert hcon
  unfold SamplerClass.kernel energy
  cases b.cls with
  | gwgBinary fn k => rintro ⟨rfl, _⟩ _; exact (h2 rfl).1
  | gwgAdaptive fn t => rintro ⟨rfl, _⟩ _; exact (h2 rfl).1
  | gwgCateg fn => intro h _; exact (hn h).1
  | pathAux fn target k approx =>
    cases st <;> simp only [Option.bind_eq_some_iff, reduceCtorEq, false_implies, implies_true]
    rintro _ ⟨w, _, h⟩
    by_cases hC : C = 2
    · simp only [hC, if_true, Option.bind_eq_some_iff] at h ⊢
      obtain ⟨l, hl, -⟩ := h
      cases approx with
      | true => simpa using (h2 hC).1
      | false =>
        simp only [ModelIface.pafsLocal, Bool.false_eq_true, if_false, Option.map_eq_some_iff] at hl ⊢
        obtain ⟨g, hg, -⟩ := hl
        have := (h2 hC).2 g (by rw [hg]; rfl)
        simpa [hg] using this
    · simp only [hC, if_false, Option.bind_eq_some_iff] at h ⊢
      obtain ⟨l, hl, -⟩ := h
      cases approx with
      | true => simpa using (hn hC).1
      | false =>
        simp only [ModelIface.pafsLocalHot, Bool.false_eq_true, if_false, Option.map_eq_some_iff] at hl ⊢
        obtain ⟨g, hg, -⟩ := hl
        have := (hn hC).2 g (by rw [hg]; rfl)
        simpa [hg] using this
  | dmala fn a =>
    intro _ _
    by_cases hC : C = 2
    · simpa [hC] using (h2 hC).1
    · simpa [hC] using (hn hC).1
  | dlmc fn a =>
    intro _ _
    by_cases hC : C = 2
    · simpa [hC] using (h2 hC).1
    · simpa [hC] using (hn hC).1
  | _ => intros; rfl

theorem nearlyInvariant_congr_target {X : Type*} {S : Finset X} {π π' : X → ℝ} {K : X → X → ℝ} {ε : ℝ}
    (h : ∀ x ∈ S, π x = π' x) (hK : NearlyInvariant S π K ε) : NearlyInvariant S π' K ε := by
  unfold NearlyInvariant at *
  rw [← Finset.sum_congr rfl h]
  refine le_trans (le_of_eq (Finset.sum_congr rfl fun y hy => ?_)) hK
  rw [h y hy]
  congr 2
  exact Finset.sum_congr rfl fun x hx => by rw [h x hx]

/-- **C111 (coherent models).** For a model whose evaluations agree, a step of any built and sound sampler
keeps `exp` of its log-likelihood up to the bound of C110. -/
theorem built_keeps_model {c : RunCfg} {b : Built} (hb : buildSampler c = .ok b) {D C : ℕ}
    (hcats : b.cats = C) (hD : 0 < D) (hC : 2 ≤ C) (hs : Sound b.cls C) {M : ModelIface D C} (hM : Coherent M)
    (st : ℕ → SamplerState) (hst : ∀ t, Legal b.cls D (st t)) {K : ℕ → (Fin D → ℤ) → (Fin D → ℤ) → ℝ}
    (hK : ∀ t, b.cls.kernel M (st t) = some (K t)) (n : ℕ) :
    NearlyInvariant (validStates C D) (fun x => Real.exp (M.f x)) (iterate (validStates C D) K n)
      (n * (2 * mhTiny + 2 * D * llEps)) := by
  have h := built_targets_run hb hcats hD hC hs M st hst hK n
  have he : ∀ x ∈ validStates C D, energy b.cls M x = M.f x := fun x hx =>
    coherent_energy hb hcats hM (hK 0) hx
  exact nearlyInvariant_congr_target (fun x hx => by rw [he x hx]) h

/-! ### The models whose evaluations agree -/

theorem valid_binary {D : ℕ} {x : Fin D → ℤ} (hx : x ∈ validStates 2 D) (j : Fin D) : x j = 0 ∨ x j = 1 := by
  rw [mem_validStates] at hx
  have := hx j
  push_cast at this
  omega

theorem binary_coherent {D : ℕ} (F : (Fin D → ℝ) → ℝ) (mask : Option (Fin D → ℝ)) :
    Coherent (binaryIface (fun x => F fun j => (x j : ℝ)) F none mask) :=
  fun _ _ => ⟨fun _ => ⟨rfl, by simp [binaryIface]⟩, fun h => absurd rfl h⟩

theorem oneHot_coherent {D C : ℕ} (F : (Fin D → Fin C → ℝ) → ℝ) (mask : Option (Fin D → ℝ)) :
    Coherent (oneHotIface F none mask) :=
  fun _ _ => ⟨fun _ => ⟨rfl, by simp [oneHotIface]⟩, fun _ => ⟨rfl, by simp [oneHotIface]⟩⟩

/-- **C111 (the models whose evaluations agree).** -/
theorem bern_coherent {D : ℕ} (p : Fin D → ℝ) : Coherent (bernIface p) := binary_coherent _ _

theorem fhmm_coherent {n K : ℕ} (alpha beta sigma : ℝ) (w : Fin K → ℝ) (b : ℝ) (y : Fin (n + 1) → ℝ) :
    Coherent (fhmmIface alpha beta sigma w b y) :=
  binary_coherent (fun x => fhmmForward alpha beta sigma w b y (unflat x)) _

theorem rbm_coherent {V H : ℕ} (P : RBMParams V H) : Coherent (rbmIface P) := binary_coherent _ _

theorem categ_coherent {D C : ℕ} (p : Fin D → Fin C → ℝ) : Coherent (categIface p) := oneHot_coherent _ _

theorem potts_coherent {H W C : ℕ} (wh wv wb : Fin H → Fin W → Fin C → ℝ) : Coherent (pottsIface wh wv wb) :=
  oneHot_coherent _ _

theorem cfhmm_coherent {n K C : ℕ} (alphaLogits : Fin C → ℝ) (logBeta : Fin C → Fin C → ℝ) (sigma : ℝ)
    (w : Fin K → Fin C → ℝ) (b : ℝ) (y : Fin (n + 1) → ℝ) :
    Coherent (cfhmmIface alphaLogits logBeta sigma w b y) := oneHot_coherent _ _

theorem crbm_coherent {V H C : ℕ} (P : CRBMParams V H C) : Coherent (crbmIface P) := oneHot_coherent _ _

theorem mis_coherent {N m : ℕ} (A : EdgeArrays N m) (nodes : Fin (N + 1) → ℝ) (coeff T : ℝ)
    (mask : Option (Fin (N + 1) → ℝ)) : Coherent (misIface A nodes coeff T mask) := binary_coherent _ _

theorem clique_coherent {N m : ℕ} (A : EdgeArrays N m) (nodes : Fin (N + 1) → ℝ) (coeff T : ℝ)
    (mask : Option (Fin (N + 1) → ℝ)) : Coherent (cliqueIface A nodes coeff T mask) := binary_coherent _ _

/-- **C111 (image models).** Any network, with or without the mean of the data, at every temperature. -/
theorem image_coherent {D : ℕ} (eps : ℝ) (mean : Option (Fin D → ℝ)) (net : (Fin D → ℝ) → ℝ) (beta : Option ℝ) :
    Coherent (imageIface eps mean net beta) := by
  have h : (fun x : Fin D → ℤ => imageFloat eps mean net beta fun j => (x j : ℝ)) =
      imageForward eps mean (fun x => net fun j => (x j : ℝ)) beta := by
    funext x
    cases mean <;> cases beta <;> rfl
  unfold imageIface
  rw [← h]
  exact binary_coherent _ _

/-- **C111 (MaxCut).** The value returned with the exact log-ratios is the log-likelihood. -/
theorem maxcut_coherent {N : ℕ} (es : List (Edge N)) (hl : Loopless es) (padded : ℕ) (T : ℝ)
    (mask : Option (Fin (N + 1) → ℝ)) : Coherent (maxcutIface (graph2edges es padded) T mask) := by
  refine fun x hx => ⟨fun _ => ⟨rfl, fun g hg => ?_⟩, fun h => absurd rfl h⟩
  simp only [maxcutIface, binaryIface, Option.mem_def, Option.some.injEq] at hg
  subst hg
  have hb : IsBinary fun v => (x v : ℝ) := fun v => by rcases valid_binary hx v with h | h <;> simp [h]
  exact (maxcut_logratio_exact es hl padded T hb 0).1

/-- The category of every site of a valid sample. -/
def digit {D C : ℕ} {x : Fin D → ℤ} (hx : x ∈ validStates C D) (j : Fin D) : Fin C :=
  ⟨(x j).toNat, by have := mem_validStates.1 hx j; omega⟩

theorem oneHotRow_digit {N C : ℕ} {x : Fin (N + 1) → ℤ} (hx : x ∈ validStates C (N + 1)) :
    oneHotRow C x = ncOneHot (digit hx) := by
  funext j c
  have := mem_validStates.1 hx j
  have e : ((c : ℕ) : ℤ) = x j ↔ c = digit hx j := by
    rw [Fin.ext_iff]
    simp only [digit]
    omega
  unfold oneHotRow oneHot ncOneHot
  by_cases h : c = digit hx j
  · rw [if_pos h]
    have := e.2 h
    simp [this]
  · rw [if_neg h]
    have h' : ¬ ((c : ℕ) : ℤ) = x j := fun hh => h (e.1 hh)
    simp [h']

theorem floor_ncOneHot {N C : ℕ} (z : Fin (N + 1) → Fin C) :
    (fun v c => ⌊ncOneHot z v c⌋) = oneHotInt z := by
  funext v c
  unfold ncOneHot oneHotInt
  split_ifs <;> simp

/-- **C111 (NormCut).** The value returned with the exact log-ratios never contains the balance penalty. -/
theorem nc_exact_energy {N C : ℕ} (cfg : NCConfig) (es : List (Edge N)) (padded : ℕ) (deg : Fin (N + 1) → ℝ)
    (T : ℝ) (mask : Option (Fin (N + 1) → ℝ)) {x : Fin (N + 1) → ℤ} (hx : x ∈ validStates C (N + 1))
    (fn : String) (t : Option ℚ) (k : ℕ) (hC : C ≠ 2) :
    energy (.pathAux fn t k false) (ncIface (C := C) cfg (graph2edges es padded) deg T mask) x =
      ncForward { cfg with penalty := 0 } (graph2edges es padded) deg T (oneHotRow C x) := by
  unfold energy
  simp only [hC, if_false, Bool.false_eq_true, ncIface, oneHotIface, Option.map_some, Option.getD_some]
  rw [oneHotRow_digit hx, floor_ncOneHot]
  exact nc_cur_obj { cfg with penalty := 0 } (by simp) es padded deg T (digit hx)

theorem nc_coherent {N C : ℕ} (cfg : NCConfig) (hp : ¬ cfg.penalty > 0) (es : List (Edge N)) (padded : ℕ)
    (deg : Fin (N + 1) → ℝ) (T : ℝ) (mask : Option (Fin (N + 1) → ℝ)) :
    Coherent (ncIface (C := C) cfg (graph2edges es padded) deg T mask) := by
  refine fun x hx => ⟨fun _ => ⟨rfl, by simp [ncIface, oneHotIface]⟩, fun _ => ⟨rfl, fun g hg => ?_⟩⟩
  simp only [ncIface, oneHotIface, Option.mem_def, Option.some.injEq] at hg
  subst hg
  simp only [ncIface, oneHotIface]
  rw [oneHotRow_digit hx, floor_ncOneHot]
  exact nc_cur_obj cfg hp es padded deg T (digit hx)

/-! ### Categorical models with two categories -/

/-- **C111 (two categories).** `Categorical` and `Potts` with two categories get samples that are not one-hot
encoded; the scores of the gradient samplers are then zero at every site, ... -/
theorem two_categories_blind {D : ℕ} (F : (Fin D → Fin 2 → ℝ) → ℝ)
    (nbHot : Option ((Fin D → Fin 2 → ℝ) → ℝ × (Fin D → Fin 2 → ℝ))) (mask : Option (Fin D → ℝ))
    (x : Fin D → ℤ) (j : Fin D) : deltaBinary (oneHotIface F nbHot mask).grad x j = 0 := by
  simp [deltaBinary, oneHotIface]

/-- ... although flipping a site changes the log-likelihood by the difference of its two parameters. -/
theorem categ_two_change {D : ℕ} (p : Fin D → Fin 2 → ℝ) {x : Fin D → ℤ} (hx : x ∈ validStates 2 D) (j : Fin D) :
    (categIface p).f (Function.update x j (1 - x j)) - (categIface p).f x =
      (1 - 2 * (x j : ℝ)) * (p j 1 - p j 0) := by
  unfold categIface oneHotIface categNet oneHotRow
  dsimp only
  rw [← Finset.sum_sub_distrib, Finset.sum_eq_single j]
  · rcases valid_binary hx j with h | h
    · simp [h, oneHot, Fin.sum_univ_two]
    · simp [h, oneHot, Fin.sum_univ_two]; norm_num
  · intro i _ hi
    rw [Function.update_of_ne hi, sub_self]
  · simp

/-- Concrete case: one site with parameters `0` and `5`. -/
example : deltaBinary (categIface (D := 1) (C := 2) fun _ c => if c = 1 then 5 else 0).grad (fun _ => 0) 0 = 0 ∧
    (categIface (D := 1) (C := 2) fun _ c => if c = 1 then 5 else 0).f (Function.update (fun _ => 0) 0 (1 - 0)) -
      (categIface (D := 1) (C := 2) fun _ c => if c = 1 then 5 else 0).f (fun _ => 0) = 5 := by
  refine ⟨two_categories_blind _ _ _ _ _, ?_⟩
  rw [categ_two_change _ (by rw [mem_validStates]; intro j; simp) 0]
  simp

/-- Concrete case: every sampler configuration shipped builds for a Potts model with four categories, and
`built_keeps_model` applies to the Gibbs sampler on it. -/
example (wh wv wb : Fin 2 → Fin 2 → Fin 4 → ℝ) (n : ℕ) :
    ∃ c ∈ shippedSampler [2, 2] 4 false, ∃ b, buildSampler c = .ok b ∧ b.cls = .gibbs ∧
      NearlyInvariant (validStates 4 (2 * 2)) (fun x => Real.exp ((pottsIface wh wv wb).f x))
        (iterate (validStates 4 (2 * 2)) (fun t => gibbsKernel (pottsIface wh wv wb).f 4
          ((gibbsUpdate 4 (2 * 2))^[t] gibbsInit)) n) (n * (2 * mhTiny + 2 * (2 * 2 : ℕ) * llEps)) := by
  refine ⟨{ shape := some [2, 2], numCategories := some 4, coOpt := some false, name := "gibbs" },
    by simp [shippedSampler], ⟨[2, 2], 4, .gibbs⟩, rfl, rfl, ?_⟩
  exact built_keeps_model (c := { shape := some [2, 2], numCategories := some 4, coOpt := some false, name := "gibbs" })
    (b := ⟨[2, 2], 4, .gibbs⟩) rfl rfl (by norm_num) (by norm_num) trivial (potts_coherent wh wv wb)
    (fun t => .gibbs ((gibbsUpdate 4 (2 * 2))^[t] gibbsInit)) (fun _ => trivial) (fun _ => rfl) n

end Discs
