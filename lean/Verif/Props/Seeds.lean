import Verif.Model.Seeds
import Verif.Props.ErrorRate

/-!
# C75: seeds of simulations
-/

namespace Flamingpy.Sim

/-! ### `int_time` -/

theorem strip_spec (k f : ℕ) (hf : f < 10 ^ (k + 1)) : (strip k f).2 ≤ k ∧ (strip k f).1 < 10 ^ ((strip k f).2 + 1) ∧
    f = (strip k f).1 * 10 ^ (k - (strip k f).2) := by
  induction k generalizing f with
  | zero => simpa [strip] using hf
  | succ k ih =>
    rw [strip]
    split
    case isTrue h =>
      obtain ⟨a, b, c⟩ := ih (f / 10) (by rw [Nat.div_lt_iff_lt_mul (by norm_num)]; rwa [pow_succ] at hf)
      refine ⟨by omega, b, ?_⟩
      have : k + 1 - (strip k (f / 10)).2 = (k - (strip k (f / 10)).2) + 1 := by omega
      rw [this, pow_succ, ← mul_assoc, ← c]
      omega
    case isFalse h => exact ⟨le_rfl, hf, by simp⟩

/-- C75.  Processes that start at different microseconds (between 2001 and 2286) have different `int_time`. -/
theorem C75_time {sec micro sec' micro' : ℕ} (hs : 10 ^ 9 ≤ sec ∧ sec < 10 ^ 10) (hs' : 10 ^ 9 ≤ sec' ∧ sec' < 10 ^ 10) (hm : micro < 10 ^ 6)
    (hm' : micro' < 10 ^ 6) (h : intTime sec micro = intTime sec' micro') : sec = sec' ∧ micro = micro' := by
  obtain ⟨a, b, c⟩ := strip_spec 5 micro hm
  obtain ⟨a', b', c'⟩ := strip_spec 5 micro' hm'
  unfold intTime at h
  generalize (strip 5 micro).1 = f at *
  generalize (strip 5 micro).2 = k at *
  generalize (strip 5 micro').1 = f' at *
  generalize (strip 5 micro').2 = k' at *
  have key : ∀ {s s' f f' k k' : ℕ}, s < 10 ^ 10 → 10 ^ 9 ≤ s' → f < 10 ^ (k + 1) → s * 10 ^ (k + 1) + f = s' * 10 ^ (k' + 1) + f' → ¬ k < k' := by
    intro s s' f f' k k' h1 h2 h3 h4 h5
    have e1 : (s + 1) * 10 ^ (k + 1) ≤ 10 ^ 10 * 10 ^ (k + 1) := Nat.mul_le_mul_right _ h1
    have e2 : 10 ^ 9 * 10 ^ (k' + 1) ≤ s' * 10 ^ (k' + 1) := Nat.mul_le_mul_right _ h2
    have e3 : 10 ^ 10 * 10 ^ (k + 1) ≤ 10 ^ 9 * 10 ^ (k' + 1) := by
      rw [← pow_add, ← pow_add]
      exact Nat.pow_le_pow_right (by norm_num) (by omega)
    rw [add_mul, one_mul] at e1
    omega
  have e : k = k' := le_antisymm (not_lt.1 (key hs'.2 hs.1 b' h.symm)) (not_lt.1 (key hs.2 hs'.1 b h))
  subst e
  have hp : 0 < 10 ^ (k + 1) := by positivity
  have e1 := congrArg (· / 10 ^ (k + 1)) h
  have e2 := congrArg (· % 10 ^ (k + 1)) h
  simp only [Nat.mul_comm _ (10 ^ (k + 1)), Nat.mul_add_div hp, Nat.div_eq_of_lt b, Nat.div_eq_of_lt b', Nat.mul_add_mod, Nat.mod_eq_of_lt b,
    Nat.mod_eq_of_lt b', add_zero] at e1 e2
  exact ⟨e1, by rw [c, c', e2]⟩

example : intTime 1700000000 500000 = 17000000005 ∧ intTime 1700000000 0 = 17000000000 ∧ intTime 1700000000 12 = 1700000000000012 := by
  simp [intTime, strip]

/-! ### Seeds of the ranks -/

/-- C75.  If all ranks imported the module at the same time their seeds are different. -/
theorem C75_distinct {times : ℕ → ℕ} {t : ℕ} (h : ∀ r, times r = t) : Function.Injective (seed times) := by
  intro r r' e
  simp only [seed, h] at e
  omega

/-- C75.  Otherwise two ranks may have the same seed: the earlier one if its rank is larger by the difference of the times. -/
theorem C75_collision (times : ℕ → ℕ) (r r' : ℕ) : seed times r = seed times r' ↔ (times r : ℤ) - times r' = r' - r := by
  unfold seed
  omega

variable {γ : Type}

theorem errors_eq {rng : ℕ → γ} {times : ℕ → ℕ} {size : ℕ} {a : Call γ} {e : ℤ} (hs : 0 < size) (h : a.errors rng times size = some e) :
    (∀ i < a.trials, ∃ b, outcome a.trial (i / size) (a.start (rng (seed times (i % size)))) = some b) ∧
    e = (List.range a.trials).countP (fun i => decide (outcome a.trial (i / size) (a.start (rng (seed times (i % size)))) = some false)) := by
  unfold Call.errors at h
  obtain ⟨err, h1, rfl⟩ := Option.map_eq_some_iff.1 h
  obtain ⟨h2, h3, -⟩ := C49_errors _ _ _ hs _ _ h1
  exact ⟨h2, h3⟩

/-! ### Calls in the same process -/

/-- C75.  Calls with the same arguments in the same processes report the same number of errors: the rows that they write differ only in the
time and the duration.  Hence they are not independent. -/
theorem C75_repeat (rng : ℕ → γ) (times : ℕ → ℕ) (size : ℕ) (a : Call γ) (c : List Char × List Char) (cs : List (List Char × List Char)) (f f' : File)
    (h : session rng times size f ((c :: cs).map fun c => (a, c)) = some f') : ∃ e : ℤ, a.errors rng times size = some e ∧
    f' = some (f.getD (headerText a.texts) ++ (c :: cs).flatMap fun c => rowText { a.texts with
      errors := (toString e).toList, trials := (toString a.trials).toList, time := c.1, elapsed := c.2, mpiSize := (toString size).toList }) := by
  have step : ∀ (f f' : File) c, Call.run rng times size f (a, c) = some f' → ∃ e : ℤ, a.errors rng times size = some e ∧
      f' = (runFile f (a.record size e c)).1 := by
    intro f f' c h
    unfold Call.run at h
    simp only [Option.bind_eq_bind, Option.bind_eq_some_iff] at h
    obtain ⟨e, he, h⟩ := h
    refine ⟨e, he, ?_⟩
    split at h
    · exact (Option.some.inj h).symm
    · simp at h
  unfold session at h
  rw [List.map_cons, List.foldlM_cons, Option.bind_eq_bind, Option.bind_eq_some_iff] at h
  obtain ⟨f1, h1, h2⟩ := h
  obtain ⟨e, he, rfl⟩ := step _ _ _ h1
  refine ⟨e, he, ?_⟩
  change f' = some (f.getD (headerText (a.record size e c)) ++ (c :: cs).flatMap fun c => rowText (a.record size e c))
  have rest : ∀ (cs : List (List Char × List Char)) (t : List Char) (f' : File),
      (cs.map fun c => (a, c)).foldlM (Call.run rng times size) (some t) = some f' →
        f' = some (t ++ cs.flatMap fun c => rowText (a.record size e c)) := by
    intro cs
    induction cs with
    | nil => intro t f' h; simpa using h.symm
    | cons c cs ih =>
      intro t f' h
      rw [List.map_cons, List.foldlM_cons, Option.bind_eq_bind, Option.bind_eq_some_iff] at h
      obtain ⟨f1, h1, h2⟩ := h
      obtain ⟨e', he', rfl⟩ := step _ _ _ h1
      obtain rfl : e = e' := by rw [he] at he'; exact Option.some.inj he'
      rw [runFile_some] at h2
      rw [ih _ _ h2]
      simp
  cases f with
  | none =>
    rw [runFile_none] at h2
    rw [rest _ _ _ h2]
    simp
  | some t =>
    rw [runFile_some] at h2
    rw [rest _ _ _ h2]
    simp

/-! ### Ranks with the same seed -/

/-- C75.  Two ranks with the same seed do the same trials: the `k`-th trials of both have the same verdict. -/
theorem C75_same (rng : ℕ → γ) (times : ℕ → ℕ) (a : Call γ) {r r' : ℕ} (h : seed times r = seed times r') (k : ℕ) :
    outcome a.trial k (a.start (rng (seed times r))) = outcome a.trial k (a.start (rng (seed times r'))) := by rw [h]

theorem range_two_mul (m : ℕ) : List.range (2 * m) = (List.range m).flatMap fun k => [2 * k, 2 * k + 1] := by
  induction m with
  | zero => rfl
  | succ m ih => rw [List.range_succ, List.flatMap_append, ← ih, Nat.mul_succ, List.range_succ, List.range_succ]; simp

theorem countP_pairs {p : ℕ → Bool} {q : ℕ → Bool} (h : ∀ k, p (2 * k) = q k ∧ p (2 * k + 1) = q k) (m : ℕ) :
    (List.range (2 * m)).countP p = 2 * (List.range m).countP q := by
  induction m with
  | zero => rfl
  | succ m ih =>
    rw [Nat.mul_succ, List.range_succ, List.range_succ, List.range_succ]
    simp only [List.countP_append, List.countP_singleton, ih, (h m).1, (h m).2]
    split <;> omega

/-- C75.  If the `int_time` of the second of two ranks is smaller by one (it started a microsecond earlier, say), the number of errors of `2 m`
trials is twice the number that `m` trials of one process give. -/
theorem C75_double {rng : ℕ → γ} {times : ℕ → ℕ} (h : times 0 = times 1 + 1) {a : Call γ} {m : ℕ} (hm : a.trials = 2 * m) (e : ℤ) :
    a.errors rng times 2 = some e ↔ ∃ e' : ℤ, { a with trials := m }.errors rng times 1 = some e' ∧ e = 2 * e' := by
  have hseed : ∀ i, seed times (i % 2) = seed times 0 := by
    intro i
    rcases Nat.mod_two_eq_zero_or_one i with h' | h' <;> rw [h']
    unfold seed
    omega
  have hdef : (∃ x, a.errors rng times 2 = some x) ↔ ∃ x, { a with trials := m }.errors rng times 1 = some x := by
    unfold Call.errors
    simp only [← Option.isSome_iff_exists, Option.isSome_map, ← Option.ne_none_iff_isSome, ne_eq]
    rw [C49_defined _ _ _ (by norm_num), C49_defined _ _ _ (by norm_num)]
    simp only [hseed, hm, Nat.mod_one, Nat.div_one]
    refine not_congr ⟨fun ⟨i, hi, hn⟩ => ⟨i / 2, by omega, hn⟩, fun ⟨i, hi, hn⟩ => ⟨2 * i, by omega, ?_⟩⟩
    rwa [Nat.mul_div_cancel_left _ (by norm_num)]
  have hval : ∀ x y, a.errors rng times 2 = some x → { a with trials := m }.errors rng times 1 = some y → x = 2 * y := by
    intro x y hx hy
    obtain ⟨-, rfl⟩ := errors_eq (by norm_num) hx
    obtain ⟨-, rfl⟩ := errors_eq (by norm_num) hy
    simp only [hseed, hm, Nat.mod_one, Nat.div_one]
    rw [countP_pairs (q := fun k => decide (outcome a.trial k (a.start (rng (seed times 0))) = some false))]
    · push_cast; rfl
    · intro k
      rw [Nat.mul_div_cancel_left _ (by norm_num), show (2 * k + 1) / 2 = k by omega]
      exact ⟨rfl, rfl⟩
  constructor
  · intro hx
    obtain ⟨y, hy⟩ := hdef.1 ⟨e, hx⟩
    exact ⟨y, hy, hval _ _ hx hy⟩
  · rintro ⟨y, hy, rfl⟩
    obtain ⟨x, hx⟩ := hdef.2 ⟨y, hy⟩
    rw [hx, hval _ _ hx hy]

-- for example, rank 1 started one microsecond before rank 0
example : intTime 1700000000 123456 = intTime 1700000000 123455 + 1 := by simp [intTime, strip]

/-! ### Decoder names -/

/-- C75.  Every decoder name that the script accepts is one that `correct` accepts; the accepted names are these, in any case. -/
theorem C75_decoder (name : String) :
    (mainDecoder name = some "UF" ↔ name.toLower = "unionfind" ∨ name.toLower = "uf" ∨ name.toLower = "union-find" ∨ name.toLower = "union find") ∧
    (mainDecoder name = some "MWPM" ↔ name.toLower = "mwpm" ∨ name.toLower = "minimum weight perfect matching") ∧
    (mainDecoder name = none ∨ mainDecoder name = some "UF" ∨ mainDecoder name = some "MWPM") := by
  unfold mainDecoder
  simp only [List.mem_cons, List.not_mem_nil, or_false]
  split
  · rename_i h
    refine ⟨by simpa using h, ?_, by simp⟩
    rcases h with h | h | h | h <;> simp [h]
  · split <;> simp_all

end Flamingpy.Sim

namespace Flamingpy.Trial

open Flamingpy Flamingpy.SurfaceCode Flamingpy.UnionFind Flamingpy.Weights Flamingpy.Sim MeasureTheory ProbabilityTheory

variable {Ω : Type*} [MeasurableSpace Ω] {μ : Measure Ω} [IsProbabilityMeasure μ]

/-- A call of `run_ec_simulation` with `IidNoise`; a generator is the sequence of numbers that its `random()` is going to return. -/
noncomputable def iidCall (X : Libs) (code : Code) (name : String) (o : Opts) (p : ℝ) (trials : ℕ) (texts : Run) : Call (ℕ → ℝ) where
  S := (Noise.Attrs V × (ℕ → ℝ)) × (V → Option ℝ)
  start g := ((⟨fun _ => none, fun _ => none, fun _ => none, fun _ => none⟩, g), fun _ => none)
  trial := ecTrial X code name o (iidModel code p)
  trials := trials
  texts := texts

theorem UniformIid.comp {J J' : Type*} {U : J → Ω → ℝ} (hU : UniformIid U μ) {g : J' → J} (hg : Function.Injective g) :
    UniformIid (fun j => U (g j)) μ :=
  ⟨fun j => hU.meas _, hU.indep.precomp hg, fun j => hU.unif _⟩

theorem monteCarlo_congr {S : Type} (trial : S → Option (Bool × S)) (trials : ℕ) {size : ℕ} {s s' : ℕ → S} (h : ∀ r < size, s r = s' r) :
    monteCarlo trial trials size s = monteCarlo trial trials size s' := by
  unfold monteCarlo
  have : (List.range size).mapM (fun r => localSuccesses trial trials size r (s r)) =
      (List.range size).mapM (fun r => localSuccesses trial trials size r (s' r)) := by
    have aux : ∀ l : List ℕ, (∀ r ∈ l, r < size) → l.mapM (fun r => localSuccesses trial trials size r (s r)) =
        l.mapM (fun r => localSuccesses trial trials size r (s' r)) := by
      intro l hl
      induction l with
      | nil => rfl
      | cons r l ih => rw [List.mapM_cons, List.mapM_cons, ih fun r hr => hl r (by simp [hr]), h r (hl r (by simp))]
    exact aux _ fun r hr => List.mem_range.1 hr
  rw [this]

/-- C75.  If generators with different seeds are independent and all ranks have different seeds, the number of errors is binomial. -/
theorem C75_binomial {code : Code} (h : IsCode code) (X : Libs) {name : String} (hn : name = "MWPM" ∨ name = "UF")
    {o : Opts} (ho : o.method = "uniform") {p : ℝ} (h0 : 0 ≤ p) (h1 : p ≤ 1) {G : ℕ × ℕ → Ω → ℝ} (hG : UniformIid G μ)
    (trials : ℕ) {size : ℕ} (hs : 0 < size) (texts : Run) {times : ℕ → ℕ} (hd : ∀ r < size, ∀ r' < size, seed times r = seed times r' → r = r') (k : ℕ) :
    μ.real {ω | (iidCall X code name o p trials texts).errors (fun s i => G (s, i) ω) times size = some (k : ℤ)} =
      trials.choose k * failureRate X code name o ⟨fun _ => none, fun _ => none, fun _ => none⟩ p ^ k *
        (1 - failureRate X code name o ⟨fun _ => none, fun _ => none, fun _ => none⟩ p) ^ (trials - k) := by
  obtain ⟨b, hb⟩ : ∃ b, ∀ r < size, seed times r < b := by
    refine ⟨(Finset.range size).sup (seed times) + 1, fun r hr => Nat.lt_succ_of_le ?_⟩
    exact Finset.le_sup (f := seed times) (Finset.mem_range.2 hr)
  set e : ℕ → ℕ := fun r => if r < size then seed times r else b + r with he
  have hinj : Function.Injective e := by
    intro r r' hh
    simp only [he] at hh
    split at hh <;> split at hh
    · exact hd _ ‹_› _ ‹_› hh
    · have := hb r ‹_›; omega
    · have := hb r' ‹_›; omega
    · omega
  have hU := UniformIid.comp (g := fun j : ℕ × ℕ => (e j.1, j.2)) hG (by
    rintro ⟨r, i⟩ ⟨r', i'⟩ hh
    simp only [Prod.mk.injEq] at hh
    rw [hinj hh.1, hh.2])
  rw [← C61_binomial h X hn ho h0 h1 hU ⟨fun _ => none, fun _ => none, fun _ => none, fun _ => none⟩ (fun _ => none) trials hs k]
  congr 1
  ext ω
  simp only [Set.mem_ofPred_eq, Call.errors, Option.map_eq_some_iff]
  rw [monteCarlo_congr (s' := fun r => (iidCall X code name o p trials texts).start fun i => G (e r, i) ω)]
  · rfl
  · intro r hr
    simp only [he, hr, if_true]

/-- C75.  If the `int_time` of the second of two ranks is smaller by one, the number of errors of `2 m` trials is twice a binomial
number of `m` trials; in particular it is even.  (The mean is the same, the variance is doubled.) -/
theorem C75_even {code : Code} (h : IsCode code) (X : Libs) {name : String} (hn : name = "MWPM" ∨ name = "UF")
    {o : Opts} (ho : o.method = "uniform") {p : ℝ} (h0 : 0 ≤ p) (h1 : p ≤ 1) {G : ℕ × ℕ → Ω → ℝ} (hG : UniformIid G μ)
    (m : ℕ) (texts : Run) {times : ℕ → ℕ} (ht : times 0 = times 1 + 1) :
    (∀ k : ℕ, μ.real {ω | (iidCall X code name o p (2 * m) texts).errors (fun s i => G (s, i) ω) times 2 = some (2 * k : ℤ)} =
      m.choose k * failureRate X code name o ⟨fun _ => none, fun _ => none, fun _ => none⟩ p ^ k *
        (1 - failureRate X code name o ⟨fun _ => none, fun _ => none, fun _ => none⟩ p) ^ (m - k)) ∧
    ∀ ω, ∃ e, (iidCall X code name o p (2 * m) texts).errors (fun s i => G (s, i) ω) times 2 = some (2 * e) := by
  refine ⟨fun k => ?_, fun ω => ?_⟩
  · rw [← C75_binomial h X hn ho h0 h1 hG m (size := 1) (by norm_num) texts (times := times) (by intros; omega) k]
    congr 1
    ext ω
    simp only [Set.mem_ofPred_eq]
    rw [C75_double ht rfl]
    constructor
    · rintro ⟨e', h1, h2⟩
      obtain rfl : e' = k := by omega
      exact h1
    · intro h1
      exact ⟨k, h1, rfl⟩
  · obtain ⟨err, e1, -⟩ := C59_iid h X hn ho p (2 * m) (size := 2) (by norm_num)
      (fun r => (iidCall X code name o p (2 * m) texts).start fun i => G (seed times r, i) ω)
    have : (iidCall X code name o p (2 * m) texts).errors (fun s i => G (s, i) ω) times 2 = some (err 0) := by
      rw [Call.errors, Option.map_eq_some_iff]
      exact ⟨err, e1, rfl⟩
    obtain ⟨e', -, h2⟩ := (C75_double ht rfl _).1 this
    exact ⟨e', by rw [this, h2]⟩

-- two ranks that started a microsecond apart: 200 trials of any code never give an odd number of errors
example (ec : Ec) (b : Boundaries) (p : ℝ) (h0 : 0 ≤ p) (h1 : p ≤ 1) (texts : Run) : ∃ (Ω : Type) (_ : MeasurableSpace Ω) (μ : Measure Ω)
    (G : ℕ × ℕ → Ω → ℝ) (code : Code) (X : Libs) (times : ℕ → ℕ), UniformIid G μ ∧ IsCode code ∧ code.ec = ec ∧ code.boundaries = b ∧
    times 0 = intTime 1700000000 123456 ∧ times 1 = intTime 1700000000 123455 ∧
    ∀ ω, ∃ e, (iidCall X code "UF" {} p (2 * 100) texts).errors (fun s i => G (s, i) ω) times 2 = some (2 * e) := by
  obtain ⟨Ω, i1, μ, i2, G, hG⟩ := uniformIid_exists
  obtain ⟨X, -⟩ := libs_exist .networkx
  obtain ⟨code, hc⟩ := C54_constructor_total idOrder ec b (dims := fun _ => 5) (by simp) none
  obtain ⟨hc, hd, he, hb⟩ := hc
  have h : IsCode code := ⟨idOrder, ec, b, _, none, by simp, hc⟩
  refine ⟨Ω, i1, μ, G, code, X, fun r => if r = 0 then intTime 1700000000 123456 else intTime 1700000000 123455, hG, h, he, hb, rfl, rfl, ?_⟩
  exact (C75_even h X (Or.inr rfl) (o := {}) rfl h0 h1 hG 100 texts (by simp [intTime, strip])).2

-- a session of three calls with the same arguments
example (p : ℝ) (G : ℕ → ℕ → ℝ) (times : ℕ → ℕ) (clocks : Fin 3 → List Char × List Char) : ∃ (code : Code) (X : Libs) (e : ℤ)
    (texts : Run), IsCode code ∧ session G times 4 none ((List.ofFn clocks).map fun c => (iidCall X code "MWPM" {} p 100 texts, c)) =
      some (some (headerText ((iidCall X code "MWPM" {} p 100 texts).record 4 e (clocks 0)) ++
        (List.ofFn clocks).flatMap fun c => rowText ((iidCall X code "MWPM" {} p 100 texts).record 4 e c))) := by
  obtain ⟨X, -⟩ := libs_exist .networkx
  obtain ⟨code, hc⟩ := C54_constructor_total idOrder .primal .open (dims := fun _ => 5) (by simp) none
  have h : IsCode code := ⟨idOrder, .primal, .open, _, none, by simp, hc.1⟩
  let texts : Run := ⟨"SurfaceCode".toList, [], "IidNoise".toList, [], "MWPM".toList, [], [], [], [], [], []⟩
  let a := iidCall X code "MWPM" {} p 100 texts
  obtain ⟨err, e1, -⟩ := C59_iid h X (Or.inl rfl) (o := {}) rfl p 100 (size := 4) (by norm_num) (fun r => a.start (G (seed times r)))
  have he : a.errors G times 4 = some (err 0) := by
    rw [Call.errors, Option.map_eq_some_iff]
    exact ⟨err, e1, rfl⟩
  have hr : ∀ (f : File) c, Call.run G times 4 f (a, c) = some (runFile f (a.record 4 (err 0) c)).1 := by
    intro f c
    have : (runFile f (a.record 4 (err 0) c)).2 = true := by
      rw [C50_raises]
      simp [NoTuple, Call.record, a, iidCall, texts]
    simp only [Call.run, he, Option.bind_eq_bind, Option.bind_some, this, if_true]
  have hsess : ∃ f', session G times 4 none ((List.ofFn clocks).map fun c => (a, c)) = some f' := by
    simp [session, hr]
  obtain ⟨f', hf'⟩ := hsess
  have hl : List.ofFn clocks = clocks 0 :: [clocks 1, clocks 2] := by simp [List.ofFn_succ]
  rw [hl] at hf'
  obtain ⟨e, he', hf⟩ := C75_repeat _ _ _ _ _ _ _ _ hf'
  refine ⟨code, X, e, texts, h, ?_⟩
  rw [hl, hf', hf]
  rfl

end Flamingpy.Trial
