import Verif.Model.Lattice
import Mathlib.Algebra.BigOperators.Field
import Mathlib.Tactic.Linarith
import Mathlib.Tactic.Ring
import Mathlib.Tactic.Positivity

/-!
# C33, C34, C35: lattice energies count every edge once; number-type dependence of the Ising energy
-/

namespace Discs.Spec

/-- The neighbours of the open-boundary rectangular lattice, each unordered pair once: `q` is
directly right of or directly below `p`. -/
def rightOf {H W : ℕ} (p q : Fin H × Fin W) : Prop := p.1 = q.1 ∧ p.2.val + 1 = q.2.val
def belowOf {H W : ℕ} (p q : Fin H × Fin W) : Prop := p.2 = q.2 ∧ p.1.val + 1 = q.1.val

instance {H W : ℕ} (p q : Fin H × Fin W) : Decidable (rightOf p q) := by
  unfold rightOf; infer_instance
instance {H W : ℕ} (p q : Fin H × Fin W) : Decidable (belowOf p q) := by
  unfold belowOf; infer_instance

/-- Edges of the lattice, each once. -/
def gridEdges (H W : ℕ) : Finset ((Fin H × Fin W) × (Fin H × Fin W)) :=
  Finset.univ.filter fun e => rightOf e.1 e.2 ∨ belowOf e.1 e.2

end Discs.Spec

namespace Discs

open Finset Spec

variable {H W C : ℕ}

theorem sum_next {n : ℕ} (F : Fin n → ℝ) (r : Fin n) :
    (if h : r.val + 1 < n then F ⟨r + 1, h⟩ else 0) = ∑ r', if r.val + 1 = r'.val then F r' else 0 := by
  split_ifs with h
  · rw [Finset.sum_eq_single ⟨r + 1, h⟩]
    · simp
    · intro b _ hb
      exact if_neg fun hh => hb (Fin.ext hh.symm)
    · simp
  · refine (Finset.sum_eq_zero fun r' _ => if_neg fun hh => h ?_).symm
    rw [hh]; exact r'.2

theorem sum_prev {n : ℕ} (F : Fin n → ℝ) (r : Fin n) :
    (if 1 ≤ r.val then F ⟨r - 1, by omega⟩ else 0) =
      ∑ r', if r'.val + 1 = r.val then F r' else 0 := by
  split_ifs with h
  · rw [Finset.sum_eq_single ⟨r - 1, by omega⟩]
    · simp [Nat.sub_add_cancel h]
    · intro b _ hb
      exact if_neg fun hh => hb (Fin.ext (by simp; omega))
    · simp
  · refine (Finset.sum_eq_zero fun r' _ => if_neg fun hh => h ?_).symm
    omega

theorem recvDown_id (s w m : Grid H W) (r : Fin H) (c : Fin W) : recvDown id s w m r c =
    m r c + ∑ r', if r.val + 1 = r'.val then s r' c * w r c else 0 := by
  rw [← sum_next fun r' => s r' c * w r c]
  unfold recvDown; split_ifs <;> simp

theorem recvUp_id (s w m : Grid H W) (r : Fin H) (c : Fin W) : recvUp id s w m r c =
    m r c + ∑ r', if r'.val + 1 = r.val then s r' c * w r' c else 0 := by
  rw [← sum_prev fun r' => s r' c * w r' c]
  unfold recvUp; split_ifs <;> simp

theorem recvRight_id (s w m : Grid H W) (r : Fin H) (c : Fin W) : recvRight id s w m r c =
    m r c + ∑ c', if c.val + 1 = c'.val then s r c' * w r c else 0 := by
  rw [← sum_next fun c' => s r c' * w r c]
  unfold recvRight; split_ifs <;> simp

theorem recvLeft_id (s w m : Grid H W) (r : Fin H) (c : Fin W) : recvLeft id s w m r c =
    m r c + ∑ c', if c'.val + 1 = c.val then s r c' * w r c' else 0 := by
  rw [← sum_prev fun c' => s r c' * w r c']
  unfold recvLeft; split_ifs <;> simp

/-- Sum over vertical edges. -/
def vertSum (s w : Grid H W) : ℝ :=
  ∑ r, ∑ c, ∑ r' : Fin H, if r.val + 1 = r'.val then w r c * (s r c * s r' c) else 0

/-- Sum over horizontal edges. -/
def horSum (s w : Grid H W) : ℝ :=
  ∑ r, ∑ c, ∑ c' : Fin W, if c.val + 1 = c'.val then w r c * (s r c * s r c') else 0

theorem sum_recvDown (s w : Grid H W) : ∑ r, ∑ c, s r c *
    (∑ r', if r.val + 1 = r'.val then s r' c * w r c else 0) = vertSum s w := by
  unfold vertSum
  refine Finset.sum_congr rfl fun r _ => Finset.sum_congr rfl fun c _ => ?_
  rw [Finset.mul_sum]
  refine Finset.sum_congr rfl fun r' _ => ?_
  split_ifs
  · ring
  · simp

theorem sum_recvUp (s w : Grid H W) : ∑ r, ∑ c, s r c *
    (∑ r', if r'.val + 1 = r.val then s r' c * w r' c else 0) = vertSum s w := by
  unfold vertSum
  rw [Finset.sum_comm]
  conv_rhs => rw [Finset.sum_comm]
  refine Finset.sum_congr rfl fun c _ => ?_
  simp only [Finset.mul_sum]
  rw [Finset.sum_comm]
  refine Finset.sum_congr rfl fun r _ => Finset.sum_congr rfl fun r' _ => ?_
  split_ifs
  · ring
  · simp

theorem sum_recvRight (s w : Grid H W) : ∑ r, ∑ c, s r c *
    (∑ c', if c.val + 1 = c'.val then s r c' * w r c else 0) = horSum s w := by
  unfold horSum
  refine Finset.sum_congr rfl fun r _ => Finset.sum_congr rfl fun c _ => ?_
  rw [Finset.mul_sum]
  refine Finset.sum_congr rfl fun r' _ => ?_
  split_ifs
  · ring
  · simp

theorem sum_recvLeft (s w : Grid H W) : ∑ r, ∑ c, s r c *
    (∑ c', if c'.val + 1 = c.val then s r c' * w r c' else 0) = horSum s w := by
  unfold horSum
  refine Finset.sum_congr rfl fun r _ => ?_
  simp only [Finset.mul_sum]
  rw [Finset.sum_comm]
  refine Finset.sum_congr rfl fun c _ => Finset.sum_congr rfl fun c' _ => ?_
  split_ifs
  · ring
  · simp

/-- The message-passing form is the edge sum, for arbitrary couplings on the lattice edges. -/
theorem ising_messages (wh wv wb x : Grid H W) :
    isingForward wh wv wb x = -(vertSum (fun r c => 2 * x r c - 1) wv +
      horSum (fun r c => 2 * x r c - 1) wh) - ∑ r, ∑ c, wb r c * (2 * x r c - 1) := by
  unfold isingForward isingForwardCast
  simp only [recvDown_id, recvUp_id, recvRight_id, recvLeft_id]
  set s : Grid H W := fun r c => 2 * x r c - 1
  have h1 := sum_recvDown s wv
  have h2 := sum_recvUp s wv
  have h3 := sum_recvRight s wh
  have h4 := sum_recvLeft s wh
  have e : ∀ r c, (2 * x r c - 1) *
      ((0 + (∑ r' : Fin H, if r.val + 1 = r'.val then (2 * x r' c - 1) * wv r c else 0) +
        (∑ r' : Fin H, if r'.val + 1 = r.val then (2 * x r' c - 1) * wv r' c else 0) +
        (∑ c' : Fin W, if c.val + 1 = c'.val then (2 * x r c' - 1) * wh r c else 0) +
        ∑ c' : Fin W, if c'.val + 1 = c.val then (2 * x r c' - 1) * wh r c' else 0) / 2 + wb r c) =
      ((s r c * ∑ r' : Fin H, if r.val + 1 = r'.val then s r' c * wv r c else 0) +
        (s r c * ∑ r' : Fin H, if r'.val + 1 = r.val then s r' c * wv r' c else 0) +
        (s r c * ∑ c' : Fin W, if c.val + 1 = c'.val then s r c' * wh r c else 0) +
        (s r c * ∑ c' : Fin W, if c'.val + 1 = c.val then s r c' * wh r c' else 0)) / 2 +
        wb r c * (2 * x r c - 1) := by
    intro r c
    simp only [s]; ring
  simp only [e, Finset.sum_add_distrib, ← Finset.sum_div, h1, h2, h3, h4]
  ring

theorem sum_gridEdges (F : (Fin H × Fin W) → (Fin H × Fin W) → ℝ) :
    ∑ e ∈ gridEdges H W, F e.1 e.2 =
      (∑ r, ∑ c, ∑ r' : Fin H, if r.val + 1 = r'.val then F (r, c) (r', c) else 0) +
        ∑ r, ∑ c, ∑ c' : Fin W, if c.val + 1 = c'.val then F (r, c) (r, c') else 0 := by
  unfold gridEdges
  rw [Finset.sum_filter, Fintype.sum_prod_type, Fintype.sum_prod_type, ← Finset.sum_add_distrib]
  refine Finset.sum_congr rfl fun r _ => ?_
  rw [← Finset.sum_add_distrib]
  refine Finset.sum_congr rfl fun c _ => ?_
  have hsplit : ∀ q : Fin H × Fin W,
      (if rightOf (r, c) q ∨ belowOf (r, c) q then F (r, c) q else 0) =
      (if belowOf (r, c) q then F (r, c) q else 0) + if rightOf (r, c) q then F (r, c) q else 0 := by
    intro q
    by_cases h1 : rightOf (r, c) q
    · have h2 : ¬ belowOf (r, c) q := by
        intro h2
        have := h1.2; have h3 : c = q.2 := h2.1
        rw [← h3] at this
        simp at this
      simp [h1, h2]
    · by_cases h2 : belowOf (r, c) q <;> simp [h1, h2]
  simp only [hsplit, Finset.sum_add_distrib]
  congr 1
  · rw [Fintype.sum_prod_type]
    refine Finset.sum_congr rfl fun r' _ => ?_
    rw [Finset.sum_eq_single c]
    · simp [belowOf]
    · intro c' _ hc
      exact if_neg fun hh => hc hh.1.symm
    · simp
  · rw [Fintype.sum_prod_type, Finset.sum_eq_single r]
    · refine Finset.sum_congr rfl fun c' _ => ?_
      simp [rightOf]
    · intro r' _ hr
      exact Finset.sum_eq_zero fun c' _ => if_neg fun hh => hr hh.1.symm
    · simp

/-- **C33.** With the parameters `make_init_params` builds, the Ising log-likelihood of a float
sample is `λ` times the sum over the edges of the open-boundary lattice (each once) of the spin
products, minus the sum of fields times spins. -/
theorem ising_counts_edges_once (lambdaa : ℝ) (b x : Grid H W) :
    isingForward (isingInitW lambdaa) (isingInitW lambdaa) b x =
      lambdaa * ∑ e ∈ gridEdges H W, (2 * x e.1.1 e.1.2 - 1) * (2 * x e.2.1 e.2.2 - 1) -
        ∑ p : Fin H × Fin W, b p.1 p.2 * (2 * x p.1 p.2 - 1) := by
  rw [ising_messages, sum_gridEdges fun p q => (2 * x p.1 p.2 - 1) * (2 * x q.1 q.2 - 1),
    Fintype.sum_prod_type]
  congr 1
  rw [mul_add, Finset.mul_sum, Finset.mul_sum, neg_add]
  unfold vertSum horSum isingInitW
  rw [← Finset.sum_neg_distrib, ← Finset.sum_neg_distrib]
  congr 1 <;>
  · refine Finset.sum_congr rfl fun r _ => ?_
    rw [← Finset.sum_neg_distrib, Finset.mul_sum]
    refine Finset.sum_congr rfl fun c _ => ?_
    rw [← Finset.sum_neg_distrib, Finset.mul_sum]
    refine Finset.sum_congr rfl fun r' _ => ?_
    split_ifs <;> ring

/-- The lattice really is the open-boundary one: an `H × W` grid has `H(W-1) + (H-1)W` edges. -/
theorem card_gridEdges (H W : ℕ) : (gridEdges (H + 1) (W + 1)).card = (H + 1) * W + H * (W + 1) := by
  have h := sum_gridEdges (H := H + 1) (W := W + 1) fun _ _ => 1
  rw [Finset.sum_const, nsmul_eq_mul, mul_one] at h
  have key : ∀ n : ℕ, ∑ r : Fin (n + 1), ∑ r' : Fin (n + 1), (if r.val + 1 = r'.val then (1 : ℝ) else 0)
      = n := by
    intro n
    have := fun r : Fin (n + 1) => (sum_next (fun _ => (1 : ℝ)) r).symm
    simp only [this]
    rw [Fin.sum_univ_castSucc]
    simp
  have e1 : ∑ r : Fin (H + 1), ∑ _c : Fin (W + 1), ∑ r' : Fin (H + 1),
      (if r.val + 1 = r'.val then (1 : ℝ) else 0) = H * (W + 1) := by
    rw [Finset.sum_comm]
    simp only [key, Finset.sum_const, Finset.card_univ, Fintype.card_fin, nsmul_eq_mul]
    push_cast; ring
  have e2 : ∑ _r : Fin (H + 1), ∑ c : Fin (W + 1), ∑ c' : Fin (W + 1),
      (if c.val + 1 = c'.val then (1 : ℝ) else 0) = (H + 1) * W := by
    simp only [key, Finset.sum_const, Finset.card_univ, Fintype.card_fin, nsmul_eq_mul]
    push_cast; ring
  rw [e1, e2] at h
  have : ((gridEdges (H + 1) (W + 1)).card : ℝ) = (((H + 1) * W + H * (W + 1) : ℕ) : ℝ) := by
    rw [h]; push_cast; ring
  exact_mod_cast this

/-- The initial fields are bounded: `|b| ≤ |init_sigma| + |mu|`. -/
theorem isingInitB_bound (sigma mu : ℝ) (u : Grid H W) (hu : ∀ r c, 0 ≤ u r c ∧ u r c ≤ 1)
    (r : Fin H) (c : Fin W) : |isingInitB sigma mu u r c| ≤ |sigma| + |mu| := by
  unfold isingInitB
  refine (abs_add_le _ _).trans (add_le_add ?_ ?_)
  · rw [abs_mul]
    have : |2 * u r c - 1| ≤ 1 := abs_le.2 ⟨by linarith [(hu r c).1], by linarith [(hu r c).2]⟩
    nlinarith [abs_nonneg sigma]
  · rw [abs_mul]
    have : |innerOuter H W r c| = 1 := by unfold innerOuter; split_ifs <;> simp
    rw [this, mul_one]

/-! ### C34: integer samples -/

theorem truncZero_intCast (n : ℤ) : truncZero n = n := by
  unfold truncZero; split_ifs <;> simp

theorem truncZero_small {z : ℝ} (h : |z| < 1) : truncZero z = 0 := by
  obtain ⟨h1, h2⟩ := abs_lt.1 h
  unfold truncZero
  split_ifs with h0
  · have : ⌊z⌋ = 0 := Int.floor_eq_iff.2 ⟨by simpa using h0, by simpa using h2⟩
    simp [this]
  · have : ⌈z⌉ = 0 := Int.ceil_eq_iff.2 ⟨by simpa using h1, by simpa using (not_le.1 h0).le⟩
    simp [this]

/-- Messages stay zero when no write reaches one in absolute value. -/
theorem recv_zero {s w : Grid H W} (hs : ∀ r c, |s r c| ≤ 1) (hw : ∀ r c, |w r c| < 1) :
    recvDown truncZero s w (fun _ _ => 0) = (fun _ _ => 0) ∧
    recvUp truncZero s w (fun _ _ => 0) = (fun _ _ => 0) ∧
    recvRight truncZero s w (fun _ _ => 0) = (fun _ _ => 0) ∧
    recvLeft truncZero s w (fun _ _ => 0) = (fun _ _ => 0) := by
  have key : ∀ r c r' c', truncZero (0 + s r c * w r' c') = 0 := by
    intro r c r' c'
    refine truncZero_small ?_
    rw [zero_add, abs_mul]
    exact lt_of_le_of_lt (mul_le_of_le_one_left (abs_nonneg _) (hs r c)) (hw r' c')
  refine ⟨?_, ?_, ?_, ?_⟩ <;> funext r c
  · unfold recvDown; split_ifs <;> simp only [key]
  · unfold recvUp; split_ifs <;> simp only [key]
  · unfold recvRight; split_ifs <;> simp only [key]
  · unfold recvLeft; split_ifs <;> simp only [key]

/-- **C34 is false of the code.**  With couplings smaller than one in absolute value (the default
configuration), the energy of an integer 0/1 sample contains no interaction at all: every message
is truncated to zero. -/
theorem ising_int_loses_couplings (wh wv wb : Grid H W) (hh : ∀ r c, |wh r c| < 1)
    (hv : ∀ r c, |wv r c| < 1) (x : Fin H → Fin W → ℤ) (hx : ∀ r c, x r c = 0 ∨ x r c = 1) :
    isingForwardInt wh wv wb x = -∑ r, ∑ c, (2 * (x r c : ℝ) - 1) * wb r c := by
  have hs : ∀ r c, |2 * (x r c : ℝ) - 1| ≤ 1 := by
    intro r c
    rcases hx r c with h | h <;> simp [h]; norm_num
  obtain ⟨h1, h2, -, -⟩ := recv_zero (s := fun r c => 2 * (x r c : ℝ) - 1) hs hv
  obtain ⟨-, -, h3, h4⟩ := recv_zero (s := fun r c => 2 * (x r c : ℝ) - 1) hs hh
  unfold isingForwardInt isingForwardCast
  simp only [h1, h2, h3, h4, zero_div, zero_add]

/-- **C34, refutation.**  A two-site lattice, coupling `1/2`, aligned spins, no field: the float
energy is `1/2`, the integer energy is `0`. -/
theorem ising_number_type_matters :
    isingForward (isingInitW (1 / 2)) (isingInitW (1 / 2)) (fun _ _ => 0)
        (fun (_ : Fin 1) (_ : Fin 2) => ((1 : ℤ) : ℝ)) = 1 / 2 ∧
      isingForwardInt (isingInitW (1 / 2)) (isingInitW (1 / 2)) (fun _ _ => 0)
        (fun (_ : Fin 1) (_ : Fin 2) => (1 : ℤ)) = 0 := by
  constructor
  · rw [ising_messages]
    simp [vertSum, horSum, isingInitW, Fin.sum_univ_two]
    norm_num
  · rw [ising_int_loses_couplings]
    · simp
    · intro r c; rw [isingInitW, abs_neg, abs_of_pos] <;> norm_num
    · intro r c; rw [isingInitW, abs_neg, abs_of_pos] <;> norm_num
    · intro r c; right; rfl

/-- **C34, what remains (partial).**  For integer couplings the two agree on every integer sample;
missing: every non-integer coupling, where the statement is false. -/
theorem ising_number_type_partial (wh wv : Fin H → Fin W → ℤ) (wb : Grid H W)
    (x : Fin H → Fin W → ℤ) :
    isingForwardInt (fun r c => (wh r c : ℝ)) (fun r c => (wv r c : ℝ)) wb x =
      isingForward (fun r c => (wh r c : ℝ)) (fun r c => (wv r c : ℝ)) wb fun r c => (x r c : ℝ) := by
  have hi : ∀ (s w m : Fin H → Fin W → ℤ) (r r' : Fin H) (c c' : Fin W) (r'' : Fin H) (c'' : Fin W),
      truncZero ((m r'' c'' : ℝ) + (s r c : ℝ) * (w r' c' : ℝ)) =
        (m r'' c'' : ℝ) + (s r c : ℝ) * (w r' c' : ℝ) := by
    intro s w m r r' c c' r'' c''
    have := truncZero_intCast (m r'' c'' + s r c * w r' c')
    push_cast at this; exact this
  -- each of the four updates maps integer grids to integer grids, without loss
  have hd : ∀ s w m : Fin H → Fin W → ℤ, ∃ m' : Fin H → Fin W → ℤ,
      recvDown truncZero (fun r c => (s r c : ℝ)) (fun r c => (w r c : ℝ)) (fun r c => (m r c : ℝ)) =
        (fun r c => (m' r c : ℝ)) ∧
      recvDown id (fun r c => (s r c : ℝ)) (fun r c => (w r c : ℝ)) (fun r c => (m r c : ℝ)) =
        (fun r c => (m' r c : ℝ)) := by
    intro s w m
    refine ⟨fun r c => if h : r.val + 1 < H then m r c + s ⟨r + 1, h⟩ c * w r c else m r c, ?_, ?_⟩ <;>
    · funext r c
      by_cases h : r.val + 1 < H <;> simp [recvDown, h, hi]
  have hu : ∀ s w m : Fin H → Fin W → ℤ, ∃ m' : Fin H → Fin W → ℤ,
      recvUp truncZero (fun r c => (s r c : ℝ)) (fun r c => (w r c : ℝ)) (fun r c => (m r c : ℝ)) =
        (fun r c => (m' r c : ℝ)) ∧
      recvUp id (fun r c => (s r c : ℝ)) (fun r c => (w r c : ℝ)) (fun r c => (m r c : ℝ)) =
        (fun r c => (m' r c : ℝ)) := by
    intro s w m
    refine ⟨fun r c => if 1 ≤ r.val then
      m r c + s ⟨r - 1, by omega⟩ c * w ⟨r - 1, by omega⟩ c else m r c, ?_, ?_⟩ <;>
    · funext r c
      by_cases h : 1 ≤ r.val <;> simp [recvUp, h, hi]
  have hr : ∀ s w m : Fin H → Fin W → ℤ, ∃ m' : Fin H → Fin W → ℤ,
      recvRight truncZero (fun r c => (s r c : ℝ)) (fun r c => (w r c : ℝ)) (fun r c => (m r c : ℝ)) =
        (fun r c => (m' r c : ℝ)) ∧
      recvRight id (fun r c => (s r c : ℝ)) (fun r c => (w r c : ℝ)) (fun r c => (m r c : ℝ)) =
        (fun r c => (m' r c : ℝ)) := by
    intro s w m
    refine ⟨fun r c => if h : c.val + 1 < W then m r c + s r ⟨c + 1, h⟩ * w r c else m r c, ?_, ?_⟩ <;>
    · funext r c
      by_cases h : c.val + 1 < W <;> simp [recvRight, h, hi]
  have hl : ∀ s w m : Fin H → Fin W → ℤ, ∃ m' : Fin H → Fin W → ℤ,
      recvLeft truncZero (fun r c => (s r c : ℝ)) (fun r c => (w r c : ℝ)) (fun r c => (m r c : ℝ)) =
        (fun r c => (m' r c : ℝ)) ∧
      recvLeft id (fun r c => (s r c : ℝ)) (fun r c => (w r c : ℝ)) (fun r c => (m r c : ℝ)) =
        (fun r c => (m' r c : ℝ)) := by
    intro s w m
    refine ⟨fun r c => if 1 ≤ c.val then
      m r c + s r ⟨c - 1, by omega⟩ * w r ⟨c - 1, by omega⟩ else m r c, ?_, ?_⟩ <;>
    · funext r c
      by_cases h : 1 ≤ c.val <;> simp [recvLeft, h, hi]
  have hsp : (fun (r : Fin H) (c : Fin W) => 2 * (x r c : ℝ) - 1) =
      fun r c => (((fun r c => 2 * x r c - 1) r c : ℤ) : ℝ) := by
    funext r c; push_cast; ring
  have h0 : (fun (_ : Fin H) (_ : Fin W) => (0 : ℝ)) = fun r c => ((((fun _ _ => 0) : Fin H → Fin W → ℤ) r c : ℤ) : ℝ) := by
    funext r c; simp
  unfold isingForwardInt isingForward isingForwardCast
  simp only []
  rw [hsp, h0]
  obtain ⟨m1, e1, e1'⟩ := hd (fun r c => 2 * x r c - 1) wv (fun _ _ => 0)
  rw [e1, e1']
  obtain ⟨m2, e2, e2'⟩ := hu (fun r c => 2 * x r c - 1) wv m1
  rw [e2, e2']
  obtain ⟨m3, e3, e3'⟩ := hr (fun r c => 2 * x r c - 1) wh m2
  rw [e3, e3']
  obtain ⟨m4, e4, e4'⟩ := hl (fun r c => 2 * x r c - 1) wh m3
  rw [e4, e4']

/-! ### C35: Potts -/

theorem potts_messages (wh wv wb x : Fin H → Fin W → Fin C → ℝ) :
    pottsNet wh wv wb x = -(∑ k, (horSum (fun r c => x r c k) (fun r c => wh r c k) +
      vertSum (fun r c => x r c k) fun r c => wv r c k)) - ∑ r, ∑ c, ∑ k, wb r c k * x r c k := by
  unfold pottsNet
  simp only [recvDown_id, recvUp_id, recvRight_id, recvLeft_id]
  have hk : ∀ k, (horSum (fun r c => x r c k) (fun r c => wh r c k) +
      vertSum (fun r c => x r c k) fun r c => wv r c k) + ∑ r, ∑ c, wb r c k * x r c k =
      ∑ r, ∑ c, x r c k * ((0 + (∑ c' : Fin W, if c.val + 1 = c'.val then x r c' k * wh r c k else 0) +
        (∑ c' : Fin W, if c'.val + 1 = c.val then x r c' k * wh r c' k else 0) +
        (∑ r' : Fin H, if r.val + 1 = r'.val then x r' c k * wv r c k else 0) +
        ∑ r' : Fin H, if r'.val + 1 = r.val then x r' c k * wv r' c k else 0) / 2 + wb r c k) := by
    intro k
    have h1 := sum_recvDown (fun r c => x r c k) (fun r c => wv r c k)
    have h2 := sum_recvUp (fun r c => x r c k) (fun r c => wv r c k)
    have h3 := sum_recvRight (fun r c => x r c k) (fun r c => wh r c k)
    have h4 := sum_recvLeft (fun r c => x r c k) (fun r c => wh r c k)
    have e : ∀ r c, x r c k * ((0 +
        (∑ c' : Fin W, if c.val + 1 = c'.val then x r c' k * wh r c k else 0) +
        (∑ c' : Fin W, if c'.val + 1 = c.val then x r c' k * wh r c' k else 0) +
        (∑ r' : Fin H, if r.val + 1 = r'.val then x r' c k * wv r c k else 0) +
        ∑ r' : Fin H, if r'.val + 1 = r.val then x r' c k * wv r' c k else 0) / 2 + wb r c k) =
        ((x r c k * ∑ c' : Fin W, if c.val + 1 = c'.val then x r c' k * wh r c k else 0) +
        (x r c k * ∑ c' : Fin W, if c'.val + 1 = c.val then x r c' k * wh r c' k else 0) +
        (x r c k * ∑ r' : Fin H, if r.val + 1 = r'.val then x r' c k * wv r c k else 0) +
        (x r c k * ∑ r' : Fin H, if r'.val + 1 = r.val then x r' c k * wv r' c k else 0)) / 2 +
        wb r c k * x r c k := by
      intro r c; ring
    simp only [e, Finset.sum_add_distrib, ← Finset.sum_div, h1, h2, h3, h4]
    ring
  rw [neg_eq_iff_eq_neg, neg_sub, sub_neg_eq_add]
  have hswap : ∀ F : Fin H → Fin W → Fin C → ℝ, ∑ r, ∑ c, ∑ k, F r c k = ∑ k, ∑ r, ∑ c, F r c k := by
    intro F
    rw [Finset.sum_comm]
    simp only [Finset.sum_comm (s := (Finset.univ : Finset (Fin H)))]
    rw [Finset.sum_comm]
  rw [hswap, hswap, ← Finset.sum_add_distrib]
  refine Finset.sum_congr rfl fun k _ => ?_
  rw [add_comm, hk]

/-- **C35.** The Potts log-likelihood is `λ` times the number of lattice edges whose endpoints carry
the same category, minus the fields at the chosen categories. -/
theorem potts_counts_agreeing_edges (lambdaa : ℝ) (b : Fin H → Fin W → Fin C → ℝ)
    (x : Fin H → Fin W → ℤ) (v : Fin H → Fin W → Fin C) (hx : ∀ r c, x r c = (v r c : ℕ)) :
    pottsForward (fun _ _ _ => -lambdaa) (fun _ _ _ => -lambdaa) b x =
      lambdaa * ((gridEdges H W).filter fun e => x e.1.1 e.1.2 = x e.2.1 e.2.2).card -
        ∑ p : Fin H × Fin W, b p.1 p.2 (v p.1 p.2) := by
  unfold pottsForward
  rw [potts_messages]
  have hone : ∀ r c (g : Fin C → ℝ), ∑ k, g k * oneHot C (x r c) k = g (v r c) := by
    intro r c g
    rw [Finset.sum_eq_single (v r c)]
    · simp [oneHot, hx]
    · intro k _ hk
      have : ¬ ((k : ℕ) : ℤ) = x r c := by
        rw [hx]; intro h; exact hk (Fin.ext (by exact_mod_cast h))
      simp [oneHot, this]
    · simp
  have hpair : ∀ r c r' c', ∑ k, -lambdaa * (oneHot C (x r c) k * oneHot C (x r' c') k) =
      if x r c = x r' c' then -lambdaa else 0 := by
    intro r c r' c'
    simp only [← mul_assoc]
    have := hone r' c' fun k => -lambdaa * oneHot C (x r c) k
    rw [this]
    have he : (((v r' c' : ℕ) : ℤ) = x r c) ↔ x r c = x r' c' := by
      rw [hx r' c']; exact eq_comm
    unfold oneHot
    split_ifs with h1 h2 h2
    · ring
    · exact absurd (he.1 h1) h2
    · exact absurd (he.2 h2) h1
    · ring
  have hcard : (((gridEdges H W).filter fun e => x e.1.1 e.1.2 = x e.2.1 e.2.2).card : ℝ) =
      ∑ e ∈ gridEdges H W, if x e.1.1 e.1.2 = x e.2.1 e.2.2 then (1 : ℝ) else 0 := by
    rw [Finset.card_filter]; push_cast; rfl
  rw [hcard, sum_gridEdges fun p q => if x p.1 p.2 = x q.1 q.2 then (1 : ℝ) else 0,
    Fintype.sum_prod_type]
  simp only [hone]
  congr 1
  rw [Finset.sum_add_distrib, neg_add_rev, mul_add]
  unfold horSum vertSum
  congr 1
  · rw [Finset.sum_comm, ← Finset.sum_neg_distrib, Finset.mul_sum]
    refine Finset.sum_congr rfl fun r _ => ?_
    rw [Finset.sum_comm, ← Finset.sum_neg_distrib, Finset.mul_sum]
    refine Finset.sum_congr rfl fun c _ => ?_
    rw [Finset.sum_comm, ← Finset.sum_neg_distrib, Finset.mul_sum]
    refine Finset.sum_congr rfl fun r' _ => ?_
    split_ifs with h1 h2
    · rw [hpair, if_pos h2]; ring
    · rw [hpair, if_neg h2]; ring
    · simp
  · rw [Finset.sum_comm, ← Finset.sum_neg_distrib, Finset.mul_sum]
    refine Finset.sum_congr rfl fun r _ => ?_
    rw [Finset.sum_comm, ← Finset.sum_neg_distrib, Finset.mul_sum]
    refine Finset.sum_congr rfl fun c _ => ?_
    rw [Finset.sum_comm, ← Finset.sum_neg_distrib, Finset.mul_sum]
    refine Finset.sum_congr rfl fun r' _ => ?_
    split_ifs with h1 h2
    · rw [hpair, if_pos h2]; ring
    · rw [hpair, if_neg h2]; ring
    · simp

/-- Concrete case: on the 2 × 2 lattice with all sites in category 1 of 3, all four edges agree. -/
example : pottsForward (H := 2) (W := 2) (C := 3) (fun _ _ _ => -(1 / 2)) (fun _ _ _ => -(1 / 2))
    (fun _ _ _ => 0) (fun _ _ => 1) = 2 := by
  rw [potts_counts_agreeing_edges (1 / 2) (fun _ _ _ => 0) _ (fun _ _ => 1) (by simp)]
  have : ((gridEdges 2 2).filter fun e : (Fin 2 × Fin 2) × (Fin 2 × Fin 2) => (1 : ℤ) = 1).card = 4 := by
    decide
  rw [this]; norm_num

end Discs
