import Verif.Model.Devices
import Verif.Props.Shipped
import Verif.Props.COExperiment
import Verif.Props.Loader

/-!
# C118: the devices of a job and the instances it reports
-/

namespace Discs

open Spec

/-! ### The layouts -/

/-- When a combinatorial run has a layout: on one device always; with at least as many instances as devices, if the
number of devices divides it; with fewer, if the devices divide the chains and the only instance is number `0`. -/
theorem coLayout_isSome (parallel : Bool) (devices M B : ℕ) (idx : List ℤ) :
    (coLayout parallel devices M B idx).isSome ↔
      parallel = false ∨ devices ≤ M ∧ devices ∣ M ∨ M < devices ∧ devices ∣ B ∧ idx = [0] := by
  unfold coLayout
  cases parallel
  · simp
  · simp only [if_true, Bool.true_eq_false, false_or]
    by_cases h : devices ≤ M
    · rw [if_pos h]
      by_cases hd : M % devices = 0
      · simp [hd, h, Nat.dvd_of_mod_eq_zero hd]
      · have : ¬ devices ∣ M := fun hh => hd (Nat.mod_eq_zero_of_dvd hh)
        simp [hd, h, this, Nat.not_lt.2 h]
    · rw [if_neg h]
      by_cases hd : B % devices = 0
      · by_cases hi : idx = [0] <;> simp [hd, h, hi, Nat.dvd_of_mod_eq_zero hd, Nat.lt_of_not_le h]
      · have : ¬ devices ∣ B := fun hh => hd (Nat.mod_eq_zero_of_dvd hh)
        simp [hd, h, this]

/-- A run with another evaluator has a layout exactly if it uses one device or the devices divide the chains; the
layout then holds every chain exactly once. -/
theorem plainLayout_spec (parallel : Bool) (devices B : ℕ) :
    ((plainLayout parallel devices B).isSome ↔ parallel = false ∨ devices ∣ B) ∧
    ∀ l, plainLayout parallel devices B = some l → l.mods = 1 ∧ l.dev * l.chains = B ∧
      (0 < B → ∀ i < B, ∃! p : ℕ × ℕ, p.1 < l.dev ∧ p.2 < l.chains ∧ l.flat p.1 0 p.2 = i) := by
  have uniq : ∀ dv ch : ℕ, ∀ r, dv * ch = B → 0 < B → ∀ i < B, ∃! p : ℕ × ℕ, p.1 < dv ∧ p.2 < ch ∧
      Layout.flat ⟨dv, 1, ch, r⟩ p.1 0 p.2 = i := by
    intro dv ch r he hB i hi
    have hch : 0 < ch := Nat.pos_of_ne_zero fun h => by simp [h] at he; omega
    refine ⟨(i / ch, i % ch), ⟨?_, Nat.mod_lt _ hch, ?_⟩, ?_⟩
    · exact (Nat.div_lt_iff_lt_mul hch).2 (by rw [he]; exact hi)
    · simp only [Layout.flat, Nat.mul_one, Nat.add_zero]
      rw [Nat.mul_comm]
      exact Nat.div_add_mod i ch
    · rintro ⟨d, e⟩ ⟨-, h2, h3⟩
      simp only [Layout.flat, Nat.mul_one, Nat.add_zero] at h2 h3 ⊢
      subst h3
      rw [Nat.mul_comm d ch, Nat.mul_add_div hch, Nat.mul_add_mod, Nat.div_eq_of_lt h2, Nat.mod_eq_of_lt h2]
      rfl
  unfold plainLayout
  cases parallel
  · refine ⟨by simp, ?_⟩
    rintro l ⟨⟩
    exact ⟨rfl, by simp, uniq 1 B _ (Nat.one_mul B)⟩
  · by_cases hd : B % devices = 0
    · have hdv := Nat.dvd_of_mod_eq_zero hd
      refine ⟨by simp [hd, hdv], ?_⟩
      intro l hl
      simp only [if_true, hd] at hl
      obtain rfl := (Option.some.inj hl).symm
      exact ⟨rfl, Nat.mul_div_cancel' hdv, uniq _ _ _ (Nat.mul_div_cancel' hdv)⟩
    · have : ¬ devices ∣ B := fun hh => hd (Nat.mod_eq_zero_of_dvd hh)
      refine ⟨by simp [hd, this], ?_⟩
      intro l hl
      simp [hd] at hl

/-! ### The instances in the results file -/

/-- The results of a batch: one number for each instance that is not a dummy (`sampling.py:574-578`). -/
def Spec.batchResults {α V : Type*} (score : α → ℝ) (b : List (ℤ × α)) : COResults V :=
  ⟨[], (b.filter fun p => 0 ≤ p.1).map fun p => score p.2, []⟩

private theorem flatten_last {α : Type*} {B : ℕ} (bs : List (List α)) (b : List α) (h : ∀ l ∈ bs, l.length = B) :
    (bs ++ [b]).flatten.drop (bs.length * B) = b := by
  have : bs.flatten.length = bs.length * B := by
    rw [List.length_flatten, List.map_congr_left (g := fun _ => B) h]
    simp
  rw [List.flatten_append, ← this]
  simp

private theorem share_one {α : Type*} (items : List α) :
    share 1 0 items = items.zipIdx.map fun q => ((q.2 : ℤ), q.1) := by
  unfold share
  rw [List.filter_eq_self.2 fun q _ => by simp [Nat.mod_one]]

/-- **C50 / C118.** What `results.pkl` reports after a run over all instances in batches of `M`: the instances of the
last batch, that is those from number `M * ((n - 1) / M)` on. -/
theorem results_reported {α V : Type*} {M : ℕ} (hM : 0 < M) (dummy : α) (items : List α) (hne : items ≠ [])
    (score : α → ℝ) (fs : String → Option (COResults V)) :
    ∃ bs, getIterator 1 0 M items.length dummy items = some bs ∧
      (coGetResults (batchResults score) fs bs "results.pkl").map (·.bestRatio) =
        some ((items.drop (M * ((items.length - 1) / M))).map score) := by
  have hlen0 : 0 < items.length := List.length_pos_iff.2 hne
  obtain ⟨bs, hb, hlen, hB, k, hflat⟩ := graph_batches (P := 1) (p := 0) (B := M) one_pos hM dummy items le_rfl
  rw [Nat.one_mul] at hb hlen
  have hq : (items.length + M - 1) / M = (items.length - 1) / M + 1 := by
    rw [show items.length + M - 1 = items.length - 1 + M by omega, Nat.add_div_right _ hM]
  rw [hq] at hlen
  refine ⟨bs, hb, ?_⟩
  obtain ⟨bs', b, rfl⟩ : ∃ bs' b, bs = bs' ++ [b] :=
    ⟨bs.dropLast, bs.getLast (by rintro rfl; simp at hlen), (List.dropLast_append_getLast _).symm⟩
  have hl : bs'.length = (items.length - 1) / M := by simpa using hlen
  have hlast := flatten_last bs' b fun l hl => hB l (List.mem_append_left _ hl)
  rw [hflat, share_one, hl, Nat.mul_comm] at hlast
  have hle : M * ((items.length - 1) / M) ≤ items.length := (Nat.mul_div_le _ _).trans (by omega)
  rw [List.drop_append_of_le_length (by simpa using hle)] at hlast
  rw [results_last]
  simp only [Option.map_some, batchResults, Option.some.injEq]
  rw [← hlast, List.filter_append, List.filter_eq_self.2, List.filter_eq_nil_iff.2, List.append_nil, ← List.map_drop,
    List.map_map]
  · have : (List.drop (M * ((items.length - 1) / M)) items.zipIdx).map Prod.fst =
        items.drop (M * ((items.length - 1) / M)) := by
      rw [List.map_drop, List.zipIdx_map_fst]
    rw [← this, List.map_map]
    rfl
  · intro q hq
    obtain ⟨-, rfl⟩ := List.mem_replicate.1 hq
    simp
  · intro q hq
    obtain ⟨r, -, rfl⟩ := List.mem_map.1 (List.mem_of_mem_drop hq)
    simp

/-- **C118.** So all instances are reported if and only if there are no more than `M`; otherwise as many as the rest
of the division of their number by `M`, with `M` for `0`. -/
theorem reported_count {M n : ℕ} (hM : 0 < M) (hn : 0 < n) :
    (n - M * ((n - 1) / M) = n ↔ n ≤ M) ∧ n - M * ((n - 1) / M) ≤ M ∧ 0 < n - M * ((n - 1) / M) := by
  have h := Nat.div_add_mod (n - 1) M
  have hlt := Nat.mod_lt (n - 1) hM
  refine ⟨⟨fun he => ?_, fun hle => ?_⟩, by omega, by omega⟩
  · omega
  · rw [Nat.div_eq_of_lt (by omega)]
    simp

/-! ### The shipped jobs -/

/-- The sweep with fewer instances than devices. -/
def gapSweep : String := "co/normcut/gap_rand_sampler_sweep.py"

/-- The sweep with more instances than a batch holds. -/
def erSweep : String := "co/maxcut/er_sampler_sweep.py"

/-- The numbers of a job: instances in a batch, chains for an instance, declared instances. -/
def jobNumbers (rc : RunConfig) (c : Cfg Key Val) : Bool :=
  if rc.graphType.isSome then
    decide (c .experiment .run_parallel = some (.bool true)) && decide (rc.graphType ≠ some "optsicom") &&
    match c .experiment .num_models, c .experiment .batch_size, c .model .num_instances with
    | some (.int M), some (.int B), some (.int n) =>
      if rc.file = gapSweep then M = 5 && B = 8 && n = 5
      else if rc.graphType = some "nets" then M = 1 && B = 32 && n = 0
      else if rc.file = erSweep then M = 128 && B = 16 && n = 1000
      else decide (0 < M) && decide (8 ∣ M) && decide (0 < B) && decide (0 ≤ n) && decide (n ≤ M)
    | _, _, _ => false
  else
    match c .experiment .num_models, c .experiment .batch_size, c .experiment .run_parallel with
    | some (.int M), some (.int B), some (.bool par) =>
      M = 1 && (if rc.model = "text_infilling" then B = 1 && par = false else B = 100 && par = true)
    | _, _, _ => false

def numbersCheck (rc : RunConfig) : Bool :=
  match rc.jobs with
  | some js => js.all fun kw => match launch shippedRepo rc "" "" kw with
    | none => true
    | some c => jobNumbers rc c
  | none => false

theorem numbersCheck_all : (shippedSweeps.all numbersCheck) = true := by decide +kernel

theorem job_numbers {rc : RunConfig} (hrc : rc ∈ shippedSweeps) {js : List (List Arg)} (hj : rc.jobs = some js)
    {kw : List Arg} (hkw : kw ∈ js) {saveDir folder : String} {c : Cfg Key Val}
    (hc : launch shippedRepo rc saveDir folder kw = some c) : jobNumbers rc c = true := by
  obtain ⟨c₀, ha, h₀, -⟩ := job_facts hrc hj hkw hc
  have h := List.all_eq_true.1 numbersCheck_all rc hrc
  unfold numbersCheck at h
  rw [hj] at h
  have h := List.all_eq_true.1 h kw hkw
  rw [h₀] at h
  unfold jobNumbers at h ⊢
  rw [ha .experiment .run_parallel (by simp), ha .experiment .num_models (by simp),
    ha .experiment .batch_size (by simp), ha .model .num_instances (by simp)]
  exact h

/-- The layout of a shipped job over graphs. -/
theorem graph_layout {rc : RunConfig} (hrc : rc ∈ shippedSweeps) {js : List (List Arg)} (hj : rc.jobs = some js)
    {kw : List Arg} (hkw : kw ∈ js) {saveDir folder : String} {c : Cfg Key Val}
    (hc : launch shippedRepo rc saveDir folder kw = some c) (hg : rc.graphType.isSome) (flag : ℕ) :
    ∃ M B n : ℕ, c .experiment .num_models = some (.int M) ∧ c .experiment .batch_size = some (.int B) ∧
      c .model .num_instances = some (.int n) ∧
      (if rc.file = gapSweep then M = 5 ∧ B = 8 ∧ n = 5
        else if rc.graphType = some "nets" then M = 1 ∧ B = 32 ∧ n = 0
        else if rc.file = erSweep then M = 128 ∧ B = 16 ∧ n = 1000
        else 0 < M ∧ 8 ∣ M ∧ 0 < B ∧ n ≤ M) ∧
      ∀ idx, c.layout (rc.gpus flag) idx = coLayout (flag ≠ 1) flag M B idx := by
  have h := job_numbers hrc hj hkw hc
  have hev := (shipped_experiment hrc hj hkw hc).2.2.2.1
  unfold jobNumbers at h
  rw [if_pos hg] at h
  simp only [Bool.and_eq_true, decide_eq_true_eq] at h
  obtain ⟨⟨hp, hno⟩, h⟩ := h
  have hgpus : rc.gpus flag = flag := by
    unfold RunConfig.gpus
    rw [if_neg (fun hh => hno hh.2), if_pos hg]
  revert h
  split
  case h_2 => intro h; simp at h
  case h_1 M B n hM hB hn =>
  intro h
  have key : 0 ≤ M ∧ 0 ≤ B ∧ 0 ≤ n := by
    split_ifs at h <;> simp only [Bool.and_eq_true, decide_eq_true_eq] at h <;> omega
  obtain ⟨M, rfl⟩ := Int.eq_ofNat_of_zero_le key.1
  obtain ⟨B, rfl⟩ := Int.eq_ofNat_of_zero_le key.2.1
  obtain ⟨n, rfl⟩ := Int.eq_ofNat_of_zero_le key.2.2
  refine ⟨M, B, n, hM, hB, hn, ?_, fun idx => ?_⟩
  · split_ifs at h ⊢ <;> simp only [Bool.and_eq_true, decide_eq_true_eq] at h <;> omega
  · unfold Cfg.layout
    rw [hev, hp, hM, hB, hgpus]
    simp [experimentOf, hg, runsParallel]

/-- **C118.** Whatever the value of `--num_gpus`, the jobs over other models and texts fit the devices they ask for. -/
theorem shipped_layout_plain {rc : RunConfig} (hrc : rc ∈ shippedSweeps) {js : List (List Arg)} (hj : rc.jobs = some js)
    {kw : List Arg} (hkw : kw ∈ js) {saveDir folder : String} {c : Cfg Key Val}
    (hc : launch shippedRepo rc saveDir folder kw = some c) (hg : rc.graphType = none) (flag : ℕ) (idx : List ℤ) :
    c.layout (rc.gpus flag) idx = some (if rc.model = "text_infilling" then ⟨1, 1, 1, false⟩ else ⟨4, 1, 25, true⟩) := by
  have h := job_numbers hrc hj hkw hc
  have hev := (shipped_experiment hrc hj hkw hc).2.2.2.1
  unfold jobNumbers at h
  simp only [hg, Option.isSome_none, Bool.false_eq_true, if_false] at h
  revert h
  split
  case h_2 => intro h; simp at h
  case h_1 M B par hM hB hp =>
  intro h
  unfold Cfg.layout
  rw [hev, hp, hM, hB]
  have hco : (experimentOf rc).2 ≠ "co_eval" := by
    simp only [experimentOf, hg, Option.isSome_none, Bool.false_eq_true, if_false]
    split_ifs <;> simp
  simp only [if_neg hco]
  by_cases ht : rc.model = "text_infilling"
  · simp only [ht, if_true, Bool.and_eq_true, decide_eq_true_eq] at h
    obtain ⟨-, rfl, rfl⟩ := h
    simp [ht, plainLayout, runsParallel]
  · simp only [ht, if_false, Bool.and_eq_true, decide_eq_true_eq] at h
    obtain ⟨-, rfl, rfl⟩ := h
    simp [ht, plainLayout, runsParallel, RunConfig.gpus, hg]

/-- **C118.** The jobs over graphs fit one, two, four and eight devices, except those over computation graphs (`nets`)
and those of `gap_rand_sampler_sweep.py`. -/
theorem shipped_layout_graph {rc : RunConfig} (hrc : rc ∈ shippedSweeps) {js : List (List Arg)} (hj : rc.jobs = some js)
    {kw : List Arg} (hkw : kw ∈ js) {saveDir folder : String} {c : Cfg Key Val}
    (hc : launch shippedRepo rc saveDir folder kw = some c) (hg : rc.graphType.isSome)
    (hnets : rc.graphType ≠ some "nets") (hgap : rc.file ≠ gapSweep) {flag : ℕ} (hf : flag ∣ 8) (idx : List ℤ) :
    (c.layout (rc.gpus flag) idx).isSome := by
  obtain ⟨M, B, n, -, -, -, hN, hl⟩ := graph_layout hrc hj hkw hc hg flag
  rw [hl, coLayout_isSome]
  have h8 : 8 ∣ M ∧ 0 < M := by
    rw [if_neg hgap, if_neg hnets] at hN
    split_ifs at hN
    · exact ⟨by rw [hN.1]; norm_num, by omega⟩
    · exact ⟨hN.2.1, hN.1⟩
  have := hf.trans h8.1
  exact Or.inr (Or.inl ⟨Nat.le_of_dvd h8.2 this, this⟩)

/-- **C118.** The jobs over computation graphs fit up to 32 devices, a power of two, if and only if there is one device
or the graph is number `0` of the data set, as the loader numbers it. -/
theorem shipped_layout_nets {rc : RunConfig} (hrc : rc ∈ shippedSweeps) {js : List (List Arg)} (hj : rc.jobs = some js)
    {kw : List Arg} (hkw : kw ∈ js) {saveDir folder : String} {c : Cfg Key Val}
    (hc : launch shippedRepo rc saveDir folder kw = some c) (hnets : rc.graphType = some "nets")
    (hgap : rc.file ≠ gapSweep) {flag : ℕ} (hf : flag ∣ 32) (idx : List ℤ) :
    (c.layout (rc.gpus flag) idx).isSome ↔ flag = 1 ∨ idx = [0] := by
  obtain ⟨M, B, n, -, -, -, hN, hl⟩ := graph_layout hrc hj hkw hc (by simp [hnets]) flag
  rw [if_neg hgap, if_pos hnets] at hN
  obtain ⟨rfl, rfl, -⟩ := hN
  have h0 : 0 < flag := Nat.pos_of_dvd_of_pos hf (by norm_num)
  rw [hl, coLayout_isSome]
  by_cases h1 : flag = 1
  · simp [h1]
  · have : 1 < flag := by omega
    simp [h1, hf, this, Nat.not_le.2 this]

/-- **C118 (finding).** A job of `gap_rand_sampler_sweep.py`, with five instances, runs on one or five devices only:
on the eight devices the launcher asks for it raises. -/
theorem shipped_layout_gap {rc : RunConfig} (hrc : rc ∈ shippedSweeps) {js : List (List Arg)} (hj : rc.jobs = some js)
    {kw : List Arg} (hkw : kw ∈ js) {saveDir folder : String} {c : Cfg Key Val}
    (hc : launch shippedRepo rc saveDir folder kw = some c) (hg : rc.graphType.isSome) (hgap : rc.file = gapSweep)
    {flag : ℕ} (hf : 0 < flag) {idx : List ℤ} (hidx : idx.length = 5) :
    (c.layout (rc.gpus flag) idx).isSome ↔ flag = 1 ∨ flag = 5 := by
  obtain ⟨M, B, n, -, -, -, hN, hl⟩ := graph_layout hrc hj hkw hc hg flag
  rw [if_pos hgap] at hN
  obtain ⟨rfl, rfl, -⟩ := hN
  rw [hl, coLayout_isSome]
  have h0 : idx ≠ [0] := by rintro rfl; simp at hidx
  constructor
  · rintro (h | ⟨-, h⟩ | ⟨-, -, h⟩)
    · exact Or.inl (by simpa using h)
    · exact (Nat.dvd_prime Nat.prime_five).1 h
    · exact absurd h h0
  · rintro (rfl | rfl)
    · simp
    · simp

/-- **C118.** In a job over graphs the results file has the results of all instances, in order, if it is not a job of
`maxcut/er_sampler_sweep.py`; and the results of the last 104 of 1000 if it is.  The number of instances is the declared
one; where none is declared (`0`: the loader counts them), it is assumed not above the batch. -/
theorem shipped_reports {rc : RunConfig} (hrc : rc ∈ shippedSweeps) {js : List (List Arg)} (hj : rc.jobs = some js)
    {kw : List Arg} (hkw : kw ∈ js) {saveDir folder : String} {c : Cfg Key Val}
    (hc : launch shippedRepo rc saveDir folder kw = some c) (hg : rc.graphType.isSome) :
    ∃ M n : ℕ, c .experiment .num_models = some (.int M) ∧ c .model .num_instances = some (.int n) ∧
      ∀ {α : Type} (dummy : α) (items : List α), items ≠ [] →
        (if n = 0 then items.length ≤ M else items.length = n) → ∀ (score : α → ℝ)
        (fs : String → Option (COResults Unit)),
      ∃ bs, getIterator 1 0 M items.length dummy items = some bs ∧
        (coGetResults (batchResults score) fs bs "results.pkl").map (·.bestRatio) =
          some ((if rc.file = erSweep then items.drop 896 else items).map score) ∧
        (rc.file = erSweep → items.length = 1000 ∧ (items.drop 896).length = 104) := by
  obtain ⟨M, B, n, hM, -, hn, hN, -⟩ := graph_layout hrc hj hkw hc hg 1
  refine ⟨M, n, hM, hn, fun {α} dummy items hne hlen score fs => ?_⟩
  have hpos : 0 < items.length := List.length_pos_iff.2 hne
  have hcase : 0 < M ∧ (M * ((items.length - 1) / M) = if rc.file = erSweep then 896 else 0) ∧
      (rc.file = erSweep → items.length = 1000) := by
    by_cases her : rc.file = erSweep
    · have hnets : rc.graphType ≠ some "nets" := (by decide +kernel : ∀ rc ∈ shippedSweeps, rc.file = erSweep →
        rc.graphType ≠ some "nets") rc hrc her
      rw [if_neg (by rw [her]; decide), if_neg hnets, if_pos her] at hN
      obtain ⟨rfl, -, rfl⟩ := hN
      simp only [OfNat.ofNat_ne_zero, if_false] at hlen
      rw [hlen, if_pos her]
      norm_num
    · rw [if_neg her]
      have hle : 0 < M ∧ n ≤ M := by split_ifs at hN <;> omega
      have : items.length ≤ M := by split_ifs at hlen <;> omega
      rw [Nat.div_eq_of_lt (by omega)]
      simp [hle.1, her]
  obtain ⟨bs, h1, h2⟩ := results_reported hcase.1 dummy items hne score fs
  refine ⟨bs, h1, ?_, fun her => ⟨hcase.2.2 her, by rw [List.length_drop, hcase.2.2 her]⟩⟩
  rw [h2, hcase.2.1]
  split_ifs <;> simp

/-! ### The jobs exist -/

/-- The sweeps of the findings are shipped, and each starts its jobs. -/
theorem device_findings_inhabited : ∀ rc ∈ [swNormcutGapRandSamplerSweep, swMaxcutErSamplerSweep],
    rc ∈ shippedSweeps ∧ rc.graphType.isSome ∧ (rc.file = gapSweep ∨ rc.file = erSweep) ∧ rc.gpus 8 = 8 ∧
    ∃ js, rc.jobs = some js ∧ ∃ kw ∈ js, (launch shippedRepo rc "" "" kw).isSome := by
  intro rc h
  have hrc : rc ∈ shippedSweeps := by
    rcases List.mem_cons.1 h with rfl | h
    · simp [shippedSweeps]
    · rcases List.mem_cons.1 h with rfl | h
      · simp [shippedSweeps]
      · simp at h
  have hdat : rc.graphType.isSome ∧ (rc.file = gapSweep ∨ rc.file = erSweep) ∧ rc.gpus 8 = 8 ∧ rc.file ≠ brokenSweep := by
    rcases List.mem_cons.1 h with rfl | h
    · decide
    · rcases List.mem_cons.1 h with rfl | h
      · decide
      · simp at h
  obtain ⟨js, hj, hne, hst⟩ := shipped_starts hrc "" ""
  obtain ⟨kw, hkw⟩ := List.exists_mem_of_ne_nil js hne
  exact ⟨hrc, hdat.1, hdat.2.1, hdat.2.2.1, js, hj, kw, hkw, (hst kw hkw).2 hdat.2.2.2⟩

/-- **C118 (finding).** A job of `gap_rand_sampler_sweep.py` raises on the devices of the default flag. -/
theorem gap_default_raises : ∃ js, swNormcutGapRandSamplerSweep.jobs = some js ∧ js ≠ [] ∧
    ∀ kw ∈ js, ∃ c, launch shippedRepo swNormcutGapRandSamplerSweep "" "" kw = some c ∧
      ∀ idx : List ℤ, idx.length = 5 → c.layout (swNormcutGapRandSamplerSweep.gpus 8) idx = none := by
  obtain ⟨hrc, hg, -, -, -⟩ := device_findings_inhabited swNormcutGapRandSamplerSweep (by simp)
  obtain ⟨js, hj, hne, hst⟩ := shipped_starts hrc "" ""
  refine ⟨js, hj, hne, fun kw hkw => ?_⟩
  obtain ⟨c, hc⟩ := Option.isSome_iff_exists.1 ((hst kw hkw).2 (by decide))
  refine ⟨c, hc, fun idx hidx => ?_⟩
  have := (shipped_layout_gap hrc hj hkw hc hg rfl (flag := 8) (by norm_num) hidx).not.2 (by norm_num)
  simpa using this

/-- Non-trivial layouts: 100 chains on four devices; seven instances in batches of three. -/
example : plainLayout true 4 100 = some ⟨4, 1, 25, true⟩ ∧ plainLayout true 8 100 = none := ⟨rfl, rfl⟩

example : getIterator 1 0 3 7 0 [10, 20, 30, 40, 50, 60, 70] =
      some [[(0, 10), (1, 20), (2, 30)], [(3, 40), (4, 50), (5, 60)], [(6, 70), (-1, 0), (-1, 0)]] ∧
    [10, 20, 30, 40, 50, 60, 70].drop (3 * ((7 - 1) / 3)) = [70] := by decide

/-- The loader gives the only instance of a data set number `0`. -/
example : getIterator 1 0 1 1 7 [5] = some [[((0 : ℤ), 5)]] := by decide

end Discs
