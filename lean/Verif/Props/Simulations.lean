import Verif.Model.Simulations
import Mathlib.Data.Int.CardIntervalMod
import Mathlib.Algebra.Order.Group.Nat
import Mathlib.Tactic.Ring
import Mathlib.Tactic.Linarith

/-! # C49, C50: Monte Carlo bookkeeping and the results file -/

namespace Flamingpy.Sim

variable {S : Type}

/-! ## C49 -/

/-- State after `k` trials on one rank. -/
def after (trial : S → Option (Bool × S)) : ℕ → S → Option S
  | 0, s => some s
  | k + 1, s => (after trial k s).bind fun s => (trial s).map (·.2)

/-- Outcome of the `k`-th trial (from zero) on one rank. -/
def outcome (trial : S → Option (Bool × S)) (k : ℕ) (s : S) : Option Bool :=
  (after trial k s).bind fun s => (trial s).map (·.1)

/-- Over all ranks the trials that are run are `0, ..., trials - 1`, each once. -/
theorem C49_split (trials size : ℕ) (h : 0 < size) :
    ((List.range size).flatMap fun rank => (List.range trials).filter fun i => decide (i % size = rank)).Perm
      (List.range trials) := by
  rw [List.perm_ext_iff_of_nodup]
  · intro i
    simp only [List.mem_flatMap, List.mem_range, List.mem_filter, decide_eq_true_eq]
    constructor
    · rintro ⟨_, _, hi, _⟩; exact hi
    · intro hi; exact ⟨i % size, Nat.mod_lt _ h, hi, rfl⟩
  · rw [List.nodup_flatMap]
    refine ⟨fun _ _ => List.nodup_range.filter _, ?_⟩
    refine List.nodup_range.imp ?_
    intro a b hab i h1 h2
    simp only [List.mem_filter, decide_eq_true_eq] at h1 h2
    exact hab (h1.2.symm.trans h2.2)
  · exact List.nodup_range

/-- Number of trials below `m` run by a rank. -/
def done (size rank m : ℕ) : ℕ := Nat.count (fun i => i % size = rank) m

theorem done_eq {size rank m : ℕ} (hs : 0 < size) (h : m % size = rank) : done size rank m = m / size := by
  have hr : rank < size := h ▸ Nat.mod_lt _ hs
  have h1 : done size rank m = Nat.count (· ≡ rank [MOD size]) m := by
    unfold done
    congr 1
    funext i
    unfold Nat.ModEq
    rw [Nat.mod_eq_of_lt hr]
  rw [h1, Nat.count_modEq_card m hs, Nat.mod_eq_of_lt hr, h]
  simp

/-- Loop invariant of a rank: either some trial of the rank below `m` raised, or the count of successes so far and
the state after the trials so far. -/
theorem fold_spec (trial : S → Option (Bool × S)) {size rank : ℕ} (hs : 0 < size) (s : S) (m : ℕ) :
    match (List.range m).foldlM (trialStep trial size rank) (0, s) with
    | none => ∃ i < m, i % size = rank ∧ outcome trial (i / size) s = none
    | some c => after trial (done size rank m) s = some c.2 ∧
        (∀ i < m, i % size = rank → outcome trial (i / size) s ≠ none) ∧
        c.1 = (List.range m).countP fun i => decide (i % size = rank ∧ outcome trial (i / size) s = some true) := by
  induction m with
  | zero => simp [after, done]
  | succ m ih =>
    rw [List.range_succ, List.foldlM_append]
    cases hc : (List.range m).foldlM (trialStep trial size rank) (0, s) with
    | none =>
      rw [hc] at ih
      obtain ⟨i, h1, h2⟩ := ih
      exact ⟨i, by omega, h2⟩
    | some c =>
      rw [hc] at ih
      obtain ⟨h1, h2, h3⟩ := ih
      simp only [List.foldlM_cons, List.foldlM_nil, Option.bind_eq_bind, Option.bind_some, Option.bind_fun_some,
        Option.pure_def]
      unfold trialStep
      by_cases hm : m % size = rank
      · rw [if_pos hm]
        have hd := done_eq hs hm
        have hout : outcome trial (m / size) s = (trial c.2).map (·.1) := by
          unfold outcome; rw [← hd, h1]; rfl
        cases ht : trial c.2 with
        | none =>
          simp only [Option.bind_eq_bind, Option.bind_none]
          exact ⟨m, by omega, hm, by rw [hout, ht]; rfl⟩
        | some r =>
          simp only [Option.bind_eq_bind, Option.bind_some, Option.pure_def]
          refine ⟨?_, ?_, ?_⟩
          · have : done size rank (m + 1) = done size rank m + 1 := by
              unfold done; rw [Nat.count_succ, if_pos hm]
            rw [this]
            unfold after
            rw [h1, Option.bind_some, ht]; rfl
          · intro i hi hir
            rcases Nat.lt_succ_iff_lt_or_eq.1 hi with h | h
            · exact h2 i h hir
            · subst h; rw [hout, ht]; simp
          · rw [List.countP_append, ← h3, List.countP_singleton]
            rw [hout, ht]
            obtain ⟨b, s'⟩ := r
            cases b <;> simp [hm]
      · rw [if_neg hm]
        refine ⟨?_, ?_, ?_⟩
        · have : done size rank (m + 1) = done size rank m := by
            unfold done; rw [Nat.count_succ, if_neg hm, add_zero]
          rw [this]; exact h1
        · intro i hi hir
          rcases Nat.lt_succ_iff_lt_or_eq.1 hi with h | h
          · exact h2 i h hir
          · subst h; exact absurd hir hm
        · rw [List.countP_append, ← h3, List.countP_singleton]
          simp [hm]

theorem local_spec (trial : S → Option (Bool × S)) {size rank trials : ℕ} (hs : 0 < size) (s : S) :
    (localSuccesses trial trials size rank s = none ↔
      ∃ i < trials, i % size = rank ∧ outcome trial (i / size) s = none) ∧
    ∀ c, localSuccesses trial trials size rank s = some c →
      c = (List.range trials).countP fun i => decide (i % size = rank ∧ outcome trial (i / size) s = some true) := by
  have h := fold_spec trial (rank := rank) hs s trials
  unfold localSuccesses
  cases hc : (List.range trials).foldlM (trialStep trial size rank) (0, s) with
  | none =>
    rw [hc] at h
    exact ⟨by simpa using h, by simp⟩
  | some c =>
    rw [hc] at h
    obtain ⟨_, h2, h3⟩ := h
    constructor
    · simp only [Option.bind_eq_bind, Option.bind_some, Option.pure_def, reduceCtorEq, false_iff]
      rintro ⟨i, h4, h5, h6⟩
      exact h2 i h4 h5 h6
    · intro c' hc'
      simp only [Option.bind_eq_bind, Option.bind_some, Option.pure_def, Option.some.injEq] at hc'
      rw [← hc']; exact h3

theorem count_ranks {size : ℕ} (hs : 0 < size) (p : ℕ → Bool) (l : List ℕ) :
    ((List.range size).map fun r => l.countP fun i => decide (i % size = r) && p i).sum = l.countP p := by
  induction l with
  | nil => simp
  | cons i l ih =>
    simp only [List.countP_cons, List.sum_map_add, ih]
    congr 1
    cases hp : p i with
    | false => simp
    | true =>
      simp only [Bool.and_true, decide_eq_true_eq, if_true]
      have : ((List.range size).map fun r => if i % size = r then 1 else 0).sum = (List.range size).count (i % size) := by
        generalize List.range size = L
        induction L with
        | nil => simp
        | cons a L ihL =>
          rw [List.map_cons, List.sum_cons, ihL, List.count_cons]
          by_cases h : i % size = a
          · rw [if_pos h, h]; simp; omega
          · rw [if_neg h, if_neg (by simpa using fun e => h e.symm)]; omega
      rw [this]
      exact List.count_eq_one_of_mem List.nodup_range (List.mem_range.2 (Nat.mod_lt _ hs))

/-- The simulation raises exactly if one of the trials does. -/
theorem C49_defined (trial : S → Option (Bool × S)) (trials size : ℕ) (hs : 0 < size) (s : ℕ → S) :
    monteCarlo trial trials size s = none ↔ ∃ i < trials, outcome trial (i / size) (s (i % size)) = none := by
  unfold monteCarlo
  simp only [Option.bind_eq_bind, Option.pure_def, Option.bind_eq_none_iff, reduceCtorEq, imp_false]
  have h1 : (∀ a, (List.range size).mapM (fun r => localSuccesses trial trials size r (s r)) ≠ some a) ↔
      ∃ r < size, localSuccesses trial trials size r (s r) = none := by
    generalize hL : List.range size = L
    have : ∀ r, r < size ↔ r ∈ L := by intro r; rw [← hL, List.mem_range]
    simp only [this]
    clear this hL
    induction L with
    | nil => simp
    | cons a L ih =>
      simp only [List.mapM_cons, Option.bind_eq_bind, Option.pure_def, List.mem_cons, exists_eq_or_imp, ← ih]
      cases localSuccesses trial trials size a (s a) with
      | none => simp
      | some c =>
        cases L.mapM fun r => localSuccesses trial trials size r (s r) <;> simp
  rw [show (∀ a, ¬ (List.range size).mapM (fun r => localSuccesses trial trials size r (s r)) = some a) ↔
    ∃ r < size, localSuccesses trial trials size r (s r) = none from h1]
  constructor
  · rintro ⟨r, _, h⟩
    obtain ⟨i, h3, h4, h5⟩ := (local_spec trial hs (s r)).1.1 h
    exact ⟨i, h3, by rw [h4]; exact h5⟩
  · rintro ⟨i, h2, h3⟩
    exact ⟨i % size, Nat.mod_lt _ hs, (local_spec trial hs _).1.2 ⟨i, h2, rfl, h3⟩⟩

/-- Trial `i` is run by rank `i % size` as its trial number `i / size`; the number returned on rank 0 is the
number of trials with outcome `False`, between 0 and `trials`.  (The other ranks return `trials`.) -/
theorem C49_errors (trial : S → Option (Bool × S)) (trials size : ℕ) (hs : 0 < size) (s : ℕ → S) (err : ℕ → ℤ)
    (h : monteCarlo trial trials size s = some err) :
    (∀ i < trials, ∃ b, outcome trial (i / size) (s (i % size)) = some b) ∧
    err 0 = (List.range trials).countP (fun i => decide (outcome trial (i / size) (s (i % size)) = some false)) ∧
    0 ≤ err 0 ∧ err 0 ≤ trials ∧ ∀ rank, rank ≠ 0 → err rank = trials := by
  have hdef : ∀ i < trials, ∃ b, outcome trial (i / size) (s (i % size)) = some b := by
    intro i hi
    by_contra hc
    have : monteCarlo trial trials size s = none := (C49_defined trial trials size hs s).2 ⟨i, hi, by
      cases ho : outcome trial (i / size) (s (i % size)) with
      | none => rfl
      | some b => exact absurd ⟨b, ho⟩ hc⟩
    rw [h] at this
    exact absurd this (by simp)
  unfold monteCarlo at h
  simp only [Option.bind_eq_bind, Option.pure_def, Option.bind_eq_some_iff, Option.some.injEq] at h
  obtain ⟨locals, h1, rfl⟩ := h
  have hsum : locals.sum = (List.range trials).countP
      fun i => decide (outcome trial (i / size) (s (i % size)) = some true) := by
    rw [← count_ranks hs]
    have : locals = (List.range size).map fun r => (List.range trials).countP fun i =>
        decide (i % size = r) && decide (outcome trial (i / size) (s (i % size)) = some true) := by
      have hlen : List.Forall₂ (fun r c => localSuccesses trial trials size r (s r) = some c) (List.range size) locals := by
        clear hdef
        revert locals
        generalize List.range size = L
        induction L with
        | nil => intro locals h; simp at h; subst h; exact .nil
        | cons a L ih =>
          intro locals h
          simp only [List.mapM_cons, Option.bind_eq_bind, Option.pure_def, Option.bind_eq_some_iff,
            Option.some.injEq] at h
          obtain ⟨c, hc, cs, hcs, rfl⟩ := h
          exact .cons hc (ih cs hcs)
      clear h1 hdef
      revert hlen
      generalize List.range size = L
      intro hlen
      induction hlen with
      | nil => rfl
      | cons hc _ ih =>
        rw [List.map_cons, ← ih]
        congr 1
        rw [(local_spec trial hs _).2 _ hc]
        apply List.countP_congr
        intro i _
        simp only [decide_eq_true_eq, Bool.and_eq_true]
        constructor
        · rintro ⟨a, b⟩; exact ⟨a, by rw [a]; exact b⟩
        · rintro ⟨a, b⟩; exact ⟨a, by rw [a] at b; exact b⟩
    rw [this]
  have hcompl : (List.range trials).countP (fun i => decide (outcome trial (i / size) (s (i % size)) = some true)) +
      (List.range trials).countP (fun i => decide (outcome trial (i / size) (s (i % size)) = some false)) = trials := by
    have h2 := List.length_eq_countP_add_countP (l := List.range trials)
      (fun i => decide (outcome trial (i / size) (s (i % size)) = some true))
    rw [List.length_range] at h2
    refine Eq.trans ?_ h2.symm
    congr 1
    apply List.countP_congr
    intro i hi
    obtain ⟨b, hb⟩ := hdef i (List.mem_range.1 hi)
    rw [hb]
    cases b <;> simp
  refine ⟨hdef, ?_, ?_, ?_, ?_⟩
  · simp only [reduceSum, if_true, hsum]; omega
  · simp only [reduceSum, if_true, hsum]; omega
  · simp only [reduceSum, if_true, hsum]; omega
  · intro rank hr
    simp [reduceSum, hr]

/-- The number of errors is 0 exactly if every trial succeeded. -/
theorem C49_zero (trial : S → Option (Bool × S)) (trials size : ℕ) (hs : 0 < size) (s : ℕ → S) (err : ℕ → ℤ)
    (h : monteCarlo trial trials size s = some err) :
    err 0 = 0 ↔ ∀ i < trials, outcome trial (i / size) (s (i % size)) = some true := by
  obtain ⟨h1, h2, _⟩ := C49_errors trial trials size hs s err h
  rw [h2]
  rw [Nat.cast_eq_zero, List.countP_eq_zero]
  constructor
  · intro h3 i hi
    obtain ⟨b, hb⟩ := h1 i hi
    have := h3 i (List.mem_range.2 hi)
    rw [hb] at this ⊢
    cases b
    · simp at this
    · rfl
  · intro h3 i hi
    rw [h3 i (List.mem_range.1 hi)]
    simp

-- ten trials on three ranks whose outcomes alternate
example : ∃ err, monteCarlo (S := Bool) (fun b => some (b, !b)) 10 3 (fun _ => true) = some err ∧ err 0 = 4 := by
  refine ⟨_, rfl, ?_⟩
  decide

/-! ## C50 -/

/-- The text of a run whose arguments can all be formatted. -/
def rowText (r : Run) : List Char := (runWrites (row r)).1

def headerText (r : Run) : List Char := (header r).flatten

/-- No argument is a tuple of length other than 1. -/
def NoTuple (r : Run) : Prop :=
  ∀ e ∈ r.codeArgs ++ r.noiseArgs ++ r.decoderArgs, ∃ t, e.2.format = some t

theorem runWrites_append (a b : List (Option (List Char))) (h : (runWrites a).2 = true) :
    runWrites (a ++ b) = ((runWrites a).1 ++ (runWrites b).1, (runWrites b).2) := by
  induction a with
  | nil => simp [runWrites]
  | cons t a ih =>
    cases t with
    | none => simp [runWrites] at h
    | some t =>
      simp only [runWrites] at h
      simp [runWrites, ih h]

theorem runWrites_some (l : List (List Char)) : runWrites (l.map some) = (l.flatten, true) := by
  induction l with
  | nil => rfl
  | cons t l ih => simp [runWrites, ih]

theorem runWrites_ok_iff (l : List (Option (List Char))) : (runWrites l).2 = true ↔ none ∉ l := by
  induction l with
  | nil => simp [runWrites]
  | cons t l ih => cases t <;> simp [runWrites, ih]

/-- Writing the results raises exactly if some argument is a tuple of length other than 1. -/
theorem C50_raises (f : File) (r : Run) : (runFile f r).2 = true ↔ NoTuple r := by
  unfold runFile
  simp only
  rw [runWrites_ok_iff]
  have : none ∈ writes f r ↔ none ∈ row r := by
    unfold writes
    cases f <;> simp
  rw [this]
  unfold row NoTuple
  simp only [List.mem_append, List.mem_map, List.mem_singleton, reduceCtorEq, false_or, or_false, not_or, not_exists,
    not_and]
  constructor
  · rintro ⟨⟨h1, h2⟩, h3⟩ e he
    rcases he with (he | he) | he
    · have := h1 e he
      exact Option.ne_none_iff_exists'.1 (by simpa using this)
    · have := h2 e he
      exact Option.ne_none_iff_exists'.1 (by simpa using this)
    · have := h3 e he
      exact Option.ne_none_iff_exists'.1 (by simpa using this)
  · intro h
    refine ⟨⟨fun e he => ?_, fun e he => ?_⟩, fun e he => ?_⟩
    · obtain ⟨t, ht⟩ := h e (Or.inl (Or.inl he)); simp [ht]
    · obtain ⟨t, ht⟩ := h e (Or.inl (Or.inr he)); simp [ht]
    · obtain ⟨t, ht⟩ := h e (Or.inr he); simp [ht]

theorem runFile_some (c : List Char) (r : Run) : (runFile (some c) r).1 = some (c ++ rowText r) := rfl

theorem runFile_none (r : Run) : (runFile none r).1 = some (headerText r ++ rowText r) := by
  unfold runFile writes
  simp only [Option.getD_none, List.nil_append]
  rw [runWrites_append _ _ (by rw [runWrites_some]), runWrites_some]
  rfl

/-- The file after any positive number of runs, starting without one: one header, that of the first run, and one
row per run, in order. -/
theorem C50_history (r : Run) (rs : List Run) :
    (r :: rs).foldl (fun f r => (runFile f r).1) none = some (headerText r ++ (r :: rs).flatMap rowText) := by
  rw [List.foldl_cons, runFile_none]
  have : ∀ (c : List Char) (rs : List Run),
      rs.foldl (fun f r => (runFile f r).1) (some c) = some (c ++ rs.flatMap rowText) := by
    intro c rs
    induction rs generalizing c with
    | nil => simp
    | cons a rs ih => rw [List.foldl_cons, runFile_some, ih]; simp
  rw [this]
  simp

/-- Whatever happens to a run, including a kill at any point, what was in the file before stays, at its place. -/
theorem C50_append_only {r : Run} {c : List Char} {f' : File} (h : Effect r (some c) f') :
    ∃ d, f' = some (c ++ d) := by
  cases h with
  | finished => exact ⟨_, rfl⟩
  | stopped => exact ⟨[], by simp⟩
  | killed k => exact ⟨_, rfl⟩

/-- The same for any sequence of runs and crashes. -/
theorem C50_append_only_history {c : List Char} {rs : List Run} {f' : File}
    (h : ∃ fs : List File, List.IsChain (fun a b => ∃ r ∈ rs, Effect r a b) (some c :: fs) ∧
      (some c :: fs).getLast (by simp) = f') : ∃ d, f' = some (c ++ d) := by
  obtain ⟨fs, h1, rfl⟩ := h
  induction fs generalizing c with
  | nil => exact ⟨[], by simp⟩
  | cons f fs ih =>
    rw [List.isChain_cons_cons] at h1
    obtain ⟨⟨r, _, he⟩, h2⟩ := h1
    obtain ⟨d, rfl⟩ := C50_append_only he
    obtain ⟨d', h3⟩ := ih h2
    refine ⟨d ++ d', ?_⟩
    rw [List.getLast_cons (by simp), h3, List.append_assoc]

/-! ### Reading the file back -/

/-- The lines of a text, the part after the last line break included; `cur` is the start of the first line. -/
def lines (cur : List Char) : List Char → List (List Char)
  | [] => [cur]
  | c :: l => if c = '\n' then cur :: lines [] l else lines (cur ++ [c]) l

/-- A comma-separated line: commas separate fields, except between double quotes, which are dropped. -/
def csv : Bool → List Char → List Char → List (List Char)
  | _, cur, [] => [cur]
  | q, cur, c :: l =>
    if c = '"' then csv (!q) cur l
    else if c = ',' ∧ q = false then cur :: csv false [] l
    else csv q (cur ++ [c]) l

/-- Text of a formatted value. -/
def Val.text (v : Val) : List Char := v.format.getD []

/-- Text without separators, quotes or line breaks. -/
def Plain (t : List Char) : Prop := ',' ∉ t ∧ '"' ∉ t ∧ '\n' ∉ t

instance (t : List Char) : Decidable (Plain t) := by unfold Plain; infer_instance

/-- All names and values are plain, except that the weight options may contain commas. -/
structure PlainRun (r : Run) : Prop where
  names : ∀ t ∈ [r.code, r.noise, r.decoder, r.errors, r.trials, r.time, r.elapsed, r.mpiSize], Plain t
  keys : ∀ e ∈ r.codeArgs ++ r.noiseArgs ++ r.decoderArgs, Plain e.1
  vals : ∀ e ∈ r.codeArgs ++ r.noiseArgs, Plain e.2.text
  opts : ∀ e ∈ r.decoderArgs, (e.1 ≠ "weight_opts".toList → Plain e.2.text) ∧ '"' ∉ e.2.text ∧ '\n' ∉ e.2.text

theorem csv_plain (q : Bool) (cur t l : List Char) (h1 : '"' ∉ t) (h2 : q = true ∨ ',' ∉ t) :
    csv q cur (t ++ l) = csv q (cur ++ t) l := by
  induction t generalizing cur with
  | nil => simp
  | cons c t ih =>
    simp only [List.mem_cons, not_or] at h1
    rw [List.cons_append, csv, if_neg (fun h => h1.1 h.symm), if_neg]
    · rw [ih _ h1.2 (h2.imp id fun h => by simp only [List.mem_cons, not_or] at h; exact h.2)]
      simp
    · rintro ⟨rfl, rfl⟩
      rcases h2 with h2 | h2
      · exact absurd h2 (by simp)
      · simp at h2

theorem csv_comma (t l : List Char) (h : Plain t) : csv false [] (comma t ++ l) = t :: csv false [] l := by
  unfold comma
  rw [List.append_assoc, csv_plain _ _ _ _ h.2.1 (Or.inr h.1), List.nil_append, List.singleton_append, csv,
    if_neg (by decide), if_pos ⟨rfl, rfl⟩]

theorem csv_quoted (t l : List Char) (h : '"' ∉ t) :
    csv false [] (comma ('"' :: t ++ ['"']) ++ l) = t :: csv false [] l := by
  unfold comma
  simp only [List.cons_append, List.append_assoc, List.nil_append]
  rw [csv, if_pos rfl, Bool.not_false, csv_plain _ _ _ _ h (Or.inl rfl), csv, if_pos rfl, csv, if_neg (by decide),
    if_pos ⟨rfl, rfl⟩]
  simp

theorem csv_commas (ts : List (List Char)) (l : List Char) (h : ∀ t ∈ ts, Plain t) :
    csv false [] ((ts.map comma).flatten ++ l) = ts ++ csv false [] l := by
  induction ts with
  | nil => simp
  | cons t ts ih =>
    rw [List.map_cons, List.flatten_cons, List.append_assoc, csv_comma _ _ (h t (by simp)),
      ih fun t ht => h t (by simp [ht])]
    rfl

theorem csv_last (t : List Char) (h : Plain t) : csv false [] t = [t] := by
  have := csv_plain false [] t [] h.2.1 (Or.inr h.1)
  rw [List.append_nil, List.nil_append] at this
  rw [this]; rfl

/-- The row without its line break, for a run without tuples. -/
def rowLine (r : Run) : List Char :=
  comma r.code ++ (r.codeArgs.map fun e => comma e.2.text).flatten ++ comma r.noise ++
    (r.noiseArgs.map fun e => comma e.2.text).flatten ++ comma r.decoder ++
    (r.decoderArgs.map fun e => cell e.1 e.2.text).flatten ++
    comma r.errors ++ comma r.trials ++ comma r.time ++ comma r.elapsed ++ r.mpiSize

theorem rowText_eq {r : Run} (h : NoTuple r) : rowText r = rowLine r ++ ['\n'] := by
  have hf : ∀ e ∈ r.codeArgs ++ r.noiseArgs ++ r.decoderArgs, e.2.format = some e.2.text := by
    intro e he
    obtain ⟨t, ht⟩ := h e he
    unfold Val.text; rw [ht]; rfl
  have hrow : row r = ([comma r.code] ++ (r.codeArgs.map fun e => comma e.2.text) ++ [comma r.noise] ++
      (r.noiseArgs.map fun e => comma e.2.text) ++ [comma r.decoder] ++
      (r.decoderArgs.map fun e => cell e.1 e.2.text) ++
      [comma r.errors ++ comma r.trials ++ comma r.time ++ comma r.elapsed ++ r.mpiSize ++ ['\n']]).map some := by
    have e1 : ∀ (l : List (List Char × Val)) (g : List Char → List Char → List Char), (∀ e ∈ l, e.2.format = some e.2.text) →
        l.map (fun e => e.2.format.map (g e.1)) = (l.map fun e => g e.1 e.2.text).map some := by
      intro l g hl
      rw [List.map_map]
      apply List.map_congr_left
      intro e he
      rw [hl e he]; rfl
    unfold row
    rw [e1 r.codeArgs (fun _ => comma) fun e he => hf e (by simp [he]),
      e1 r.noiseArgs (fun _ => comma) fun e he => hf e (by simp [he]),
      e1 r.decoderArgs cell fun e he => hf e (by simp [he])]
    simp only [List.map_append, List.map_cons, List.map_nil]
  unfold rowText rowLine
  rw [hrow, runWrites_some]
  simp

def headerLine (r : Run) : List Char :=
  ((["code".toList] ++ r.codeArgs.map (·.1) ++ ["noise".toList] ++ r.noiseArgs.map (·.1) ++ ["decoder".toList] ++
    r.decoderArgs.map (·.1)).map comma).flatten ++ "errors,trials,current_time,simulation_time,mpi_size".toList

theorem headerText_eq (r : Run) : headerText r = headerLine r ++ ['\n'] := by
  unfold headerText headerLine header
  simp [Function.comp_def]

/-- The fields of the header and of a row, in the same order. -/
def headerFields (r : Run) : List (List Char) :=
  ["code".toList] ++ r.codeArgs.map (·.1) ++ ["noise".toList] ++ r.noiseArgs.map (·.1) ++ ["decoder".toList] ++
    r.decoderArgs.map (·.1) ++
    ["errors".toList, "trials".toList, "current_time".toList, "simulation_time".toList, "mpi_size".toList]

def rowFields (r : Run) : List (List Char) :=
  [r.code] ++ r.codeArgs.map (·.2.text) ++ [r.noise] ++ r.noiseArgs.map (·.2.text) ++ [r.decoder] ++
    r.decoderArgs.map (·.2.text) ++ [r.errors, r.trials, r.time, r.elapsed, r.mpiSize]

theorem plain_lit : Plain "code".toList ∧ Plain "noise".toList ∧ Plain "decoder".toList ∧ Plain "errors".toList ∧
    Plain "trials".toList ∧ Plain "current_time".toList ∧ Plain "simulation_time".toList ∧
    Plain "mpi_size".toList := by
  exact ⟨by decide, by decide, by decide, by decide, by decide, by decide, by decide, by decide⟩

theorem csv_header {r : Run} (h : PlainRun r) : csv false [] (headerLine r) = headerFields r := by
  obtain ⟨p1, p2, p3, p4, p5, p6, p7, p8⟩ := plain_lit
  unfold headerLine
  rw [csv_commas]
  · have e : "errors,trials,current_time,simulation_time,mpi_size".toList =
        comma "errors".toList ++ (comma "trials".toList ++ (comma "current_time".toList ++
          (comma "simulation_time".toList ++ "mpi_size".toList))) := by decide
    rw [e, csv_comma _ _ p4, csv_comma _ _ p5, csv_comma _ _ p6, csv_comma _ _ p7, csv_last _ p8]
    rfl
  · intro t ht
    simp only [List.mem_append, List.mem_singleton, List.mem_map, or_assoc] at ht
    rcases ht with rfl | ⟨e, he, rfl⟩ | rfl | ⟨e, he, rfl⟩ | rfl | ⟨e, he, rfl⟩
    · exact p1
    · exact h.keys e (by simp [he])
    · exact p2
    · exact h.keys e (by simp [he])
    · exact p3
    · exact h.keys e (by simp [he])

theorem csv_row {r : Run} (h : PlainRun r) : csv false [] (rowLine r) = rowFields r := by
  have hn := h.names
  simp only [List.mem_cons, List.not_mem_nil, or_false, forall_eq_or_imp, forall_eq] at hn
  obtain ⟨p1, p2, p3, p4, p5, p6, p7, p8⟩ := hn
  have hmap : ∀ l : List (List Char × Val), (l.map fun e => comma e.2.text) = (l.map (·.2.text)).map comma := by
    intro l; rw [List.map_map]; rfl
  have hopts : ∀ (l : List (List Char × Val)) (k : List Char), (∀ e ∈ l, (e.1 ≠ "weight_opts".toList → Plain e.2.text) ∧
      '"' ∉ e.2.text ∧ '\n' ∉ e.2.text) →
      csv false [] ((l.map fun e => cell e.1 e.2.text).flatten ++ k) = l.map (·.2.text) ++ csv false [] k := by
    intro l k hl
    induction l with
    | nil => simp
    | cons e l ih =>
      obtain ⟨h1, h2, h3⟩ := hl e (by simp)
      rw [List.map_cons, List.flatten_cons, List.append_assoc]
      unfold cell
      by_cases hw : e.1 = "weight_opts".toList
      · rw [if_pos hw, csv_quoted _ _ h2]
        unfold cell at ih
        rw [ih fun e he => hl e (List.mem_cons_of_mem _ he), List.map_cons, List.cons_append]
      · rw [if_neg hw, csv_comma _ _ (h1 hw)]
        unfold cell at ih
        rw [ih fun e he => hl e (List.mem_cons_of_mem _ he), List.map_cons, List.cons_append]
  unfold rowLine
  simp only [List.append_assoc]
  rw [csv_comma _ _ p1, hmap, csv_commas _ _ ?_, csv_comma _ _ p2, hmap, csv_commas _ _ ?_, csv_comma _ _ p3,
    hopts _ _ h.opts, csv_comma _ _ p4, csv_comma _ _ p5, csv_comma _ _ p6, csv_comma _ _ p7, csv_last _ p8]
  · simp [rowFields]
  · intro t ht
    obtain ⟨e, he, rfl⟩ := List.mem_map.1 ht
    exact h.vals e (by simp [he])
  · intro t ht
    obtain ⟨e, he, rfl⟩ := List.mem_map.1 ht
    exact h.vals e (by simp [he])

theorem not_mem_comma {t : List Char} (h : '\n' ∉ t) : '\n' ∉ comma t := by
  unfold comma
  simp [h]

theorem no_break_row {r : Run} (h : PlainRun r) : '\n' ∉ rowLine r := by
  have hn := h.names
  simp only [List.mem_cons, List.not_mem_nil, or_false, forall_eq_or_imp, forall_eq] at hn
  obtain ⟨p1, p2, p3, p4, p5, p6, p7, p8⟩ := hn
  unfold rowLine
  simp only [List.mem_append, not_or, List.mem_flatten, List.mem_map]
  refine ⟨⟨⟨⟨⟨⟨⟨⟨⟨⟨not_mem_comma p1.2.2, ?_⟩, not_mem_comma p2.2.2⟩, ?_⟩, not_mem_comma p3.2.2⟩, ?_⟩, not_mem_comma p4.2.2⟩,
    not_mem_comma p5.2.2⟩, not_mem_comma p6.2.2⟩, not_mem_comma p7.2.2⟩, p8.2.2⟩
  · rintro ⟨l, ⟨e, he, rfl⟩, hc⟩
    exact not_mem_comma (h.vals e (by simp [he])).2.2 hc
  · rintro ⟨l, ⟨e, he, rfl⟩, hc⟩
    exact not_mem_comma (h.vals e (by simp [he])).2.2 hc
  · rintro ⟨l, ⟨e, he, rfl⟩, hc⟩
    have := (h.opts e he).2.2
    unfold cell at hc
    split_ifs at hc
    · exact not_mem_comma (by simp [this]) hc
    · exact not_mem_comma this hc

theorem no_break_header {r : Run} (h : PlainRun r) : '\n' ∉ headerLine r := by
  unfold headerLine
  rw [List.mem_append, not_or]
  refine ⟨?_, by decide⟩
  intro hm
  obtain ⟨l, hl, hc⟩ := List.mem_flatten.1 hm
  obtain ⟨t, ht, rfl⟩ := List.mem_map.1 hl
  refine not_mem_comma ?_ hc
  simp only [List.mem_append, List.mem_singleton, List.mem_map, or_assoc] at ht
  rcases ht with rfl | ⟨e, he, rfl⟩ | rfl | ⟨e, he, rfl⟩ | rfl | ⟨e, he, rfl⟩
  · decide
  · exact (h.keys e (by simp [he])).2.2
  · decide
  · exact (h.keys e (by simp [he])).2.2
  · decide
  · exact (h.keys e (by simp [he])).2.2

theorem lines_line (cur t l : List Char) (h : '\n' ∉ t) : lines cur (t ++ '\n' :: l) = (cur ++ t) :: lines [] l := by
  induction t generalizing cur with
  | nil => simp [lines]
  | cons c t ih =>
    simp only [List.mem_cons, not_or] at h
    rw [List.cons_append, lines, if_neg (fun e => h.1 e.symm), ih _ h.2]
    simp

/-- Runs whose names and values contain no separators (commas are allowed in the weight options) and no tuples: the
lines of the file are one header line and one line per run; read as comma-separated values, the header line gives
the names and every other line the values of its run. -/
theorem C50_lines (r : Run) (rs : List Run) (hp : ∀ q ∈ r :: rs, PlainRun q ∧ NoTuple q) :
    ∃ c, (r :: rs).foldl (fun f r => (runFile f r).1) none = some c ∧
      lines [] c = headerLine r :: (r :: rs).map rowLine ++ [[]] ∧
      csv false [] (headerLine r) = headerFields r ∧ ∀ q ∈ r :: rs, csv false [] (rowLine q) = rowFields q := by
  refine ⟨_, C50_history r rs, ?_, csv_header (hp r (by simp)).1, fun q hq => csv_row (hp q hq).1⟩
  rw [headerText_eq, List.append_assoc, List.singleton_append, lines_line [] _ _ (no_break_header (hp r (by simp)).1)]
  rw [List.cons_append]
  congr 1
  generalize r :: rs = l at hp ⊢
  induction l with
  | nil => rfl
  | cons q l ih =>
    rw [List.flatMap_cons, rowText_eq (hp q (by simp)).2, List.append_assoc, List.singleton_append,
      lines_line [] _ _ (no_break_row (hp q (by simp)).1), ih fun q hq => hp q (by simp [hq])]
    rfl

/-- Runs with as many arguments of each kind as the first have as many fields as the header. -/
theorem C50_columns (r q : Run) (h1 : q.codeArgs.length = r.codeArgs.length)
    (h2 : q.noiseArgs.length = r.noiseArgs.length) (h3 : q.decoderArgs.length = r.decoderArgs.length) :
    (rowFields q).length = (headerFields r).length := by
  simp [rowFields, headerFields, h1, h2, h3]

/-! ### Concrete cases -/

/-- A run like the default of the module's command line. -/
def exampleRun : Run where
  code := "SurfaceCode".toList
  codeArgs := [("distance".toList, .other "3".toList), ("ec".toList, .other "primal".toList)]
  noise := "IidNoise".toList
  noiseArgs := [("error_probability".toList, .other "0.1".toList)]
  decoder := "MWPM".toList
  decoderArgs := [("weight_opts".toList, .other "{'method': 'blueprint', 'prob_precomputed': True}".toList)]
  errors := "7".toList
  trials := "100".toList
  time := "12:00:00".toList
  elapsed := "1.5".toList
  mpiSize := "1".toList

theorem exampleRun_plain : PlainRun exampleRun ∧ NoTuple exampleRun := by
  refine ⟨⟨?_, ?_, ?_, ?_⟩, ?_⟩
  · decide
  · decide
  · decide
  · decide
  · have h : ∀ e ∈ exampleRun.codeArgs ++ exampleRun.noiseArgs ++ exampleRun.decoderArgs, e.2.format.isSome := by
      decide
    exact fun e he => Option.isSome_iff_exists.1 (h e he)

/-- The same run with `distance=(3, 3, 3)`: writing raises `TypeError`; the file keeps an unfinished line, onto which
the next run's row is written. -/
theorem C50_tuple_breaks :
    let bad := { exampleRun with codeArgs := [("distance".toList, .tuple ["3".toList, "3".toList, "3".toList])] }
    (runFile none bad).2 = false ∧
      lines [] ((runFile (runFile none bad).1 exampleRun).1.getD []) =
        [headerLine bad, "SurfaceCode,".toList ++ rowLine exampleRun, []] := by
  decide +kernel

/-- A kill between creating the file and writing to it leaves an empty file; no later run writes a header. -/
theorem C50_header_lost (r q : Run) (hq : NoTuple q) :
    Effect r none (some []) ∧ (runFile (some []) q).1 = some (rowLine q ++ ['\n']) := by
  constructor
  · have := Effect.killed (r := r) none 0
    simpa using this
  · rw [runFile_some, List.nil_append, rowText_eq hq]

end Flamingpy.Sim
