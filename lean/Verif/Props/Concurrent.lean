import Verif.Model.Concurrent
import Verif.Props.Simulations
import Mathlib.Data.List.Flatten
import Mathlib.Tactic.SimpRw

/-!
# C73: several simulations and one results file
-/

namespace Flamingpy.Sim

variable {ι : Type} [DecidableEq ι] {whole : Bool} {runs : ι → Run}

/-- What a simulation has written according to a list of writes. -/
def written (log : List (ι × List Char)) (i : ι) : List Char := ((log.filter fun e => decide (e.1 = i)).map (·.2)).flatten

theorem written_append (log : List (ι × List Char)) (j i : ι) (a : List Char) :
    written (log ++ [(j, a)]) i = if j = i then written log i ++ a else written log i := by
  unfold written
  by_cases h : j = i <;> simp [h]

theorem text_some (c : List Char) (r : Run) : textOf (some c) r = rowText r := rfl

theorem text_none (r : Run) : textOf none r = headerText r ++ rowText r := by
  have := runFile_none r
  unfold runFile at this
  simpa [textOf] using this

/-- The state of one simulation, given what it has written. -/
def Consistent (t : List Char) (wr : List Char) : Proc → Prop
  | .idle => wr = []
  | .creating _ _ => False
  | .appending p => wr ++ p = t
  | .closed => wr = t
  | .stopped => wr <+: t

theorem rowText_ne_nil (r : Run) : rowText r ≠ [] := by
  unfold rowText row
  simp [runWrites, comma]

/-- No simulation has the file open. -/
def AtRest (P : ι → Proc) : Prop := ∀ i, P i = .idle ∨ P i = .closed ∨ P i = .stopped

/-- If the file exists and nobody has it open: after any schedule, whatever was killed, the old text is still there, followed by the writes of
the simulations one after the other; a simulation that has closed the file has written its whole row, one that was stopped an initial part
of it. -/
theorem C73_existing {c : List Char} {P : ι → Proc} (hP : AtRest P) {w : World ι} (h : Reaches whole runs ⟨some c, P⟩ w) :
    ∃ log : List (ι × List Char), w.file = some (c ++ (log.map (·.2)).flatten) ∧
      ∀ i, (P i = .idle → Consistent (rowText (runs i)) (written log i) (w.procs i)) ∧
        (P i ≠ .idle → written log i = [] ∧ (w.procs i = .closed ∨ w.procs i = .stopped)) := by
  induction h with
  | refl =>
    refine ⟨[], by simp, fun i => ⟨fun hi => ?_, fun hi => ⟨rfl, ?_⟩⟩⟩
    · change Consistent _ _ (P i)
      rw [hi]; rfl
    · rcases hP i with h | h | h
      · exact absurd h hi
      · exact Or.inl h
      · exact Or.inr h
  | @tail w1 _ _ hs ih =>
    obtain ⟨log, hf, hp⟩ := ih
    have hidle : ∀ i, (w1.procs i ≠ .closed ∧ w1.procs i ≠ .stopped) → P i = .idle := by
      intro i hi
      by_contra hc
      rcases ((hp i).2 hc).2 with h | h
      · exact hi.1 h
      · exact hi.2 h
    cases hs with
    | create i hi hn => rw [hn] at hf; cases hf
    | append i c' hi hc =>
      refine ⟨log, hf, fun j => ?_⟩
      by_cases hj : j = i
      · subst hj
        have hPj := hidle j (by rw [hi]; simp)
        have := (hp j).1 hPj
        rw [hi] at this
        simp only [Function.update_self, text_some]
        have h0 : written log j = [] := this
        refine ⟨fun _ => ?_, fun h => absurd hPj h⟩
        change written log j ++ _ = _
        rw [h0]; rfl
      · simp only [Function.update_of_ne hj]; exact hp j
    | flushNew i c' pos a b hi hc hb =>
      have := (hp i).1 (hidle i (by rw [hi]; simp))
      rw [hi] at this
      exact this.elim
    | flushOld i c' a b hi hc hb =>
      refine ⟨log ++ [(i, a)], ?_, fun j => ?_⟩
      · rw [hf] at hc
        cases hc
        simp
      · rw [written_append]
        by_cases hj : j = i
        · subst hj
          have hPj := hidle j (by rw [hi]; simp)
          have := (hp j).1 hPj
          rw [hi] at this
          simp only [Function.update_self, if_true]
          refine ⟨fun _ => ?_, fun h => absurd hPj h⟩
          change _ ++ _ = _ at this
          change _ ++ _ = _
          rw [List.append_assoc, this]
        · simp only [Function.update_of_ne hj, if_neg (Ne.symm hj)]; exact hp j
    | close i hi =>
      refine ⟨log, hf, fun j => ?_⟩
      by_cases hj : j = i
      · subst hj
        simp only [Function.update_self]
        have hPj := hidle j (by rcases hi with ⟨pos, hi⟩ | hi <;> rw [hi] <;> simp)
        refine ⟨fun _ => ?_, fun h => absurd hPj h⟩
        have := (hp j).1 hPj
        rcases hi with ⟨pos, hi⟩ | hi
        · rw [hi] at this; exact this.elim
        · rw [hi] at this
          change _ ++ [] = _ at this
          rw [List.append_nil] at this
          exact this
      · simp only [Function.update_of_ne hj]; exact hp j
    | stop i =>
      refine ⟨log, hf, fun j => ?_⟩
      by_cases hj : j = i
      · subst hj
        simp only [Function.update_self]
        refine ⟨fun hPj => ?_, fun h => ⟨((hp j).2 h).1, Or.inr trivial⟩⟩
        have := (hp j).1 hPj
        change written log j <+: _
        cases hw : w1.procs j with
        | idle => rw [hw] at this; rw [show written log j = [] from this]; exact List.nil_prefix
        | creating _ _ => rw [hw] at this; exact this.elim
        | appending p => rw [hw] at this; exact ⟨p, this⟩
        | closed => rw [hw] at this; rw [show written log j = _ from this]
        | stopped => rw [hw] at this; exact this
      · simp only [Function.update_of_ne hj]; exact hp j

/-- The state of one simulation that flushes its text at once; `order` are the simulations that have done so. -/
def WholeAt (t : List Char) (i : ι) (order : List ι) : Proc → Prop
  | .idle => i ∉ order
  | .creating _ _ => False
  | .appending p => (p = t ∧ i ∉ order) ∨ (p = [] ∧ i ∈ order)
  | .closed => i ∈ order
  | .stopped => True

omit [DecidableEq ι] in
theorem WholeAt.push {t : List Char} {i j : ι} (hij : i ≠ j) {order : List ι} {p : Proc} (h : WholeAt t i order p) :
    WholeAt t i (order ++ [j]) p := by
  cases p <;> simp_all [WholeAt]

theorem rows_inv {c : List Char} {P : ι → Proc} (hP : AtRest P) {w : World ι} (h : Reaches true runs ⟨some c, P⟩ w) :
    ∃ order : List ι, order.Nodup ∧ w.file = some (c ++ order.flatMap fun i => rowText (runs i)) ∧
      ∀ i, (P i = .idle → WholeAt (rowText (runs i)) i order (w.procs i)) ∧
        (P i ≠ .idle → i ∉ order ∧ (w.procs i = .closed ∨ w.procs i = .stopped)) := by
  induction h with
  | refl =>
    refine ⟨[], List.nodup_nil, by simp, fun i => ⟨fun hi => ?_, fun hi => ⟨by simp, ?_⟩⟩⟩
    · change WholeAt _ _ _ (P i)
      rw [hi]; simp [WholeAt]
    · rcases hP i with h | h | h
      · exact absurd h hi
      · exact Or.inl h
      · exact Or.inr h
  | @tail w1 _ _ hs ih =>
    obtain ⟨order, hnd, hf, hp⟩ := ih
    have hidle : ∀ i, (w1.procs i ≠ .closed ∧ w1.procs i ≠ .stopped) → P i = .idle := by
      intro i hi
      by_contra hc
      rcases ((hp i).2 hc).2 with h | h
      · exact hi.1 h
      · exact hi.2 h
    cases hs with
    | create i hi hn => rw [hn] at hf; cases hf
    | append i c' hi hc =>
      refine ⟨order, hnd, hf, fun j => ?_⟩
      by_cases hj : j = i
      · subst hj
        have hPj := hidle j (by rw [hi]; simp)
        have := (hp j).1 hPj
        rw [hi] at this
        simp only [Function.update_self, text_some]
        exact ⟨fun _ => Or.inl ⟨rfl, this⟩, fun h => absurd hPj h⟩
      · simp only [Function.update_of_ne hj]; exact hp j
    | flushNew i c' pos a b hi hc hb =>
      have := (hp i).1 (hidle i (by rw [hi]; simp))
      rw [hi] at this
      exact this.elim
    | flushOld i c' a b hi hc hb =>
      have hb' := hb rfl
      subst hb'
      rw [List.append_nil] at hi
      have hPi := hidle i (by rw [hi]; simp)
      have hi' := (hp i).1 hPi
      rw [hi] at hi'
      rw [hf] at hc
      cases hc
      rcases hi' with ⟨ha, hno⟩ | ⟨ha, hin⟩
      · refine ⟨order ++ [i], ?_, ?_, fun j => ?_⟩
        · rw [List.nodup_append]
          refine ⟨hnd, List.nodup_singleton i, ?_⟩
          intro x hx y hy hxy
          rw [List.mem_singleton] at hy
          exact hno (hy ▸ hxy ▸ hx)
        · simp [ha]
        · by_cases hj : j = i
          · subst hj
            simp only [Function.update_self]
            exact ⟨fun _ => Or.inr ⟨rfl, by simp⟩, fun h => absurd hPi h⟩
          · simp only [Function.update_of_ne hj]
            refine ⟨fun h => ((hp j).1 h).push hj, fun h => ⟨?_, ((hp j).2 h).2⟩⟩
            simp [((hp j).2 h).1, hj]
      · refine ⟨order, hnd, by simp [ha], fun j => ?_⟩
        by_cases hj : j = i
        · subst hj
          simp only [Function.update_self]
          exact ⟨fun _ => Or.inr ⟨rfl, hin⟩, fun h => absurd hPi h⟩
        · simp only [Function.update_of_ne hj]; exact hp j
    | close i hi =>
      refine ⟨order, hnd, hf, fun j => ?_⟩
      by_cases hj : j = i
      · subst hj
        simp only [Function.update_self]
        have hPj := hidle j (by rcases hi with ⟨pos, hi⟩ | hi <;> rw [hi] <;> simp)
        refine ⟨fun _ => ?_, fun h => absurd hPj h⟩
        have := (hp j).1 hPj
        rcases hi with ⟨pos, hi⟩ | hi
        · rw [hi] at this; exact this.elim
        · rw [hi] at this
          rcases this with ⟨h1, _⟩ | ⟨_, h2⟩
          · exact absurd h1.symm (rowText_ne_nil _)
          · exact h2
      · simp only [Function.update_of_ne hj]; exact hp j
    | stop i =>
      refine ⟨order, hnd, hf, fun j => ?_⟩
      by_cases hj : j = i
      · subst hj
        simp only [Function.update_self]
        exact ⟨fun _ => trivial, fun h => ⟨((hp j).2 h).1, Or.inr trivial⟩⟩
      · simp only [Function.update_of_ne hj]; exact hp j

/-- If moreover the text of every simulation is flushed at once: the old text is followed by whole rows, each once; those of all simulations
that have closed the file are among them (the others are of simulations that were stopped or have still to close it). -/
theorem C73_rows {c : List Char} {P : ι → Proc} (hP : AtRest P) {w : World ι} (h : Reaches true runs ⟨some c, P⟩ w) :
    ∃ order : List ι, order.Nodup ∧ w.file = some (c ++ order.flatMap fun i => rowText (runs i)) ∧
      (∀ i, P i = .idle → w.procs i = .closed → i ∈ order) ∧ ∀ i ∈ order, P i = .idle ∧ w.procs i ≠ .idle := by
  obtain ⟨order, h1, h2, h3⟩ := rows_inv hP h
  refine ⟨order, h1, h2, fun i hi hc => ?_, fun i hi => ?_⟩
  · have := (h3 i).1 hi
    rw [hc] at this
    exact this
  · have hPi : P i = .idle := by
      by_contra hc
      exact ((h3 i).2 hc).1 hi
    refine ⟨hPi, fun hc => ?_⟩
    have := (h3 i).1 hPi
    rw [hc] at this
    exact this hi

/-! ### The file does not exist -/

/-- The state of the simulation that has created the file. -/
def CreatorAt (t c : List Char) : Proc → Prop
  | .creating pos p => ∃ wr, wr.length = pos ∧ wr ++ p = t ∧ wr <+: c
  | .closed => t <+: c
  | .stopped => ∃ wr, wr <+: t ∧ wr <+: c
  | _ => False

theorem overwrite_prefix {wr c a : List Char} (h : wr <+: c) : wr ++ a <+: overwrite c wr.length a := by
  unfold overwrite
  rw [← List.prefix_iff_eq_take.1 h]
  exact List.prefix_append _ _

theorem CreatorAt.mono {t c a : List Char} {p : Proc} (h : CreatorAt t c p) : CreatorAt t (c ++ a) p := by
  cases p with
  | creating pos p =>
    obtain ⟨wr, h1, h2, h3⟩ := h
    exact ⟨wr, h1, h2, h3.trans (List.prefix_append _ _)⟩
  | closed => exact List.IsPrefix.trans h (List.prefix_append _ _)
  | stopped =>
    obtain ⟨wr, h1, h2⟩ := h
    exact ⟨wr, h1, h2.trans (List.prefix_append _ _)⟩
  | idle => exact h
  | appending p => exact h

/-- If the file does not exist at first, then after any schedule either it does not exist or there is one simulation that has created it; no other
simulation is ever in the state of having created it, and what the creator has flushed stands at the beginning of the file. -/
theorem creator_inv {w : World ι} (h : Reaches whole runs ⟨none, fun _ => .idle⟩ w) :
    (w.file = none ∧ ∀ i, w.procs i = .idle ∨ w.procs i = .stopped) ∨
    ∃ i c, w.file = some c ∧ CreatorAt (headerText (runs i) ++ rowText (runs i)) c (w.procs i) ∧
      ∀ j, j ≠ i → ∀ pos p, w.procs j ≠ .creating pos p := by
  induction h with
  | refl => exact Or.inl ⟨rfl, fun i => Or.inl rfl⟩
  | @tail w1 _ _ hs ih =>
    cases hs with
    | create i hi hn =>
      rcases ih with ⟨_, hp⟩ | ⟨i0, c, hf, _⟩
      · refine Or.inr ⟨i, [], rfl, ?_, fun j hj pos p => ?_⟩
        · simp only [Function.update_self, text_none]
          exact ⟨[], rfl, rfl, List.nil_prefix⟩
        · simp only [Function.update_of_ne hj]
          rcases hp j with h | h <;> rw [h] <;> simp
      · rw [hf] at hn; cases hn
    | append i c' hi hc =>
      rcases ih with ⟨hf, _⟩ | ⟨i0, c, hf, hi0, hp⟩
      · rw [hf] at hc; cases hc
      · refine Or.inr ⟨i0, c, hf, ?_, fun j hj pos p => ?_⟩
        · by_cases hj : i0 = i
          · subst hj; rw [hi] at hi0; exact hi0.elim
          · simp only [Function.update_of_ne hj]; exact hi0
        · by_cases hji : j = i
          · subst hji; simp only [Function.update_self]; simp
          · simp only [Function.update_of_ne hji]; exact hp j hj pos p
    | flushNew i c' pos a b hi hc hb =>
      rcases ih with ⟨hf, _⟩ | ⟨i0, c, hf, hi0, hp⟩
      · rw [hf] at hc; cases hc
      · have hii : i = i0 := by
          by_contra hne
          exact hp i hne _ _ hi
        subst hii
        rw [hf] at hc
        cases hc
        rw [hi] at hi0
        obtain ⟨wr, h1, h2, h3⟩ := hi0
        refine Or.inr ⟨i, _, rfl, ?_, fun j hj pos p => ?_⟩
        · simp only [Function.update_self]
          refine ⟨wr ++ a, by simp [h1], by rw [List.append_assoc, h2], ?_⟩
          rw [← h1]
          exact overwrite_prefix h3
        · simp only [Function.update_of_ne hj]; exact hp j hj pos p
    | flushOld i c' a b hi hc hb =>
      rcases ih with ⟨hf, _⟩ | ⟨i0, c, hf, hi0, hp⟩
      · rw [hf] at hc; cases hc
      · rw [hf] at hc
        cases hc
        refine Or.inr ⟨i0, _, rfl, ?_, fun j hj pos p => ?_⟩
        · by_cases hj : i0 = i
          · subst hj; rw [hi] at hi0; exact hi0.elim
          · simp only [Function.update_of_ne hj]; exact hi0.mono
        · by_cases hji : j = i
          · subst hji; simp only [Function.update_self]; simp
          · simp only [Function.update_of_ne hji]; exact hp j hj pos p
    | close i hi =>
      rcases ih with ⟨hf, hp⟩ | ⟨i0, c, hf, hi0, hp⟩
      · rcases hi with ⟨pos, hi⟩ | hi <;> rcases hp i with h | h <;> rw [h] at hi <;> cases hi
      · refine Or.inr ⟨i0, c, hf, ?_, fun j hj pos p => ?_⟩
        · by_cases hj : i0 = i
          · subst hj
            simp only [Function.update_self]
            rcases hi with ⟨pos, hi⟩ | hi
            · rw [hi] at hi0
              obtain ⟨wr, h1, h2, h3⟩ := hi0
              rw [List.append_nil] at h2
              rw [← h2]
              exact h3
            · rw [hi] at hi0; exact hi0.elim
          · simp only [Function.update_of_ne hj]; exact hi0
        · by_cases hji : j = i
          · subst hji; simp only [Function.update_self]; simp
          · simp only [Function.update_of_ne hji]; exact hp j hj pos p
    | stop i =>
      rcases ih with ⟨hf, hp⟩ | ⟨i0, c, hf, hi0, hp⟩
      · refine Or.inl ⟨hf, fun j => ?_⟩
        by_cases hj : j = i
        · subst hj; simp
        · simp only [Function.update_of_ne hj]; exact hp j
      · refine Or.inr ⟨i0, c, hf, ?_, fun j hj pos p => ?_⟩
        · by_cases hj : i0 = i
          · subst hj
            simp only [Function.update_self]
            revert hi0
            cases w1.procs i0 with
            | creating pos p => rintro ⟨wr, _, h2, h3⟩; exact ⟨wr, ⟨p, h2⟩, h3⟩
            | closed => intro h; exact ⟨_, List.prefix_rfl, h⟩
            | stopped => exact id
            | idle => exact False.elim
            | appending p => exact False.elim
          · simp only [Function.update_of_ne hj]; exact hi0
        · by_cases hji : j = i
          · subst hji; simp only [Function.update_self]; simp
          · simp only [Function.update_of_ne hji]; exact hp j hj pos p

/-- However the simulations are scheduled and their texts split: if the file did not exist and all simulations have closed it, it starts with the header
and the row of one of them. -/
theorem C73_header [Nonempty ι] {w : World ι} (h : Reaches whole runs ⟨none, fun _ => .idle⟩ w) (hc : ∀ i, w.procs i = .closed) :
    ∃ i d, w.file = some (headerText (runs i) ++ rowText (runs i) ++ d) := by
  rcases creator_inv h with ⟨_, hp⟩ | ⟨i, c, hf, hi, _⟩
  · obtain ⟨i⟩ := ‹Nonempty ι›
    rcases hp i with h | h <;> rw [hc i] at h <;> cases h
  · rw [hc i] at hi
    obtain ⟨d, hd⟩ := hi
    exact ⟨i, d, by rw [hf, ← hd]⟩

theorem overwrite_nil (c : List Char) (pos : ℕ) : overwrite c pos [] = c := by
  simp [overwrite]

theorem overwrite_zero (c a : List Char) : overwrite c 0 a = a ++ c.drop a.length := by
  simp [overwrite]

theorem overwrite_append (c d : List Char) (a : List Char) (h : a.length ≤ c.length) : overwrite (c ++ d) 0 a = overwrite c 0 a ++ d := by
  rw [overwrite_zero, overwrite_zero, List.drop_append_of_le_length h, List.append_assoc]

/-- The rows of some simulations. -/
def rows (runs : ι → Run) (order : List ι) : List Char := order.flatMap fun i => rowText (runs i)

omit [DecidableEq ι] in
theorem rows_snoc (order : List ι) (i : ι) : rows runs (order ++ [i]) = rows runs order ++ rowText (runs i) := by
  simp [rows]

omit [DecidableEq ι] in
theorem snoc_nodup {l : List ι} {i : ι} (h : l.Nodup) (hi : i ∉ l) : (l ++ [i]).Nodup := by
  rw [List.nodup_append]
  refine ⟨h, List.nodup_singleton i, ?_⟩
  intro x hx y hy hxy
  rw [List.mem_singleton] at hy
  exact hi (hy ▸ hxy ▸ hx)

/-- Schedules of simulations that flush at once, in the absence of the file. -/
def Fresh (runs : ι → Run) (w : World ι) : Prop :=
  ∃ i before after, (before ++ after).Nodup ∧ i ∉ before ++ after ∧
    (∀ j, j ≠ i → WholeAt (rowText (runs j)) j (before ++ after) (w.procs j)) ∧
    ((after = [] ∧ w.file = some (rows runs before) ∧
        (w.procs i = .creating 0 (headerText (runs i) ++ rowText (runs i)) ∨ w.procs i = .stopped)) ∨
      (w.file = some (headerText (runs i) ++ rowText (runs i) ++
          (rows runs before).drop (headerText (runs i) ++ rowText (runs i)).length ++ rows runs after) ∧
        ((∃ pos, w.procs i = .creating pos []) ∨ w.procs i = .closed ∨ w.procs i = .stopped)))

theorem fresh_inv {w : World ι} (h : Reaches true runs ⟨none, fun _ => .idle⟩ w) :
    (w.file = none ∧ ∀ i, w.procs i = .idle ∨ w.procs i = .stopped) ∨ Fresh runs w := by
  induction h with
  | refl => exact Or.inl ⟨rfl, fun i => Or.inl rfl⟩
  | @tail w1 _ _ hs ih =>
    cases hs with
    | create i hi hn =>
      rcases ih with ⟨_, hp⟩ | ⟨i0, bf, af, _, _, _, ⟨_, hf, _⟩ | ⟨hf, _⟩⟩
      · refine Or.inr ⟨i, [], [], by simp, by simp, fun j hj => ?_, Or.inl ⟨rfl, rfl, ?_⟩⟩
        · simp only [Function.update_of_ne hj]
          rcases hp j with h | h <;> rw [h] <;> simp [WholeAt]
        · simp only [Function.update_self, text_none, true_or]
      · rw [hf] at hn; cases hn
      · rw [hf] at hn; cases hn
    | append i c' hi hc =>
      rcases ih with ⟨hf, _⟩ | ⟨i0, bf, af, hnd, hni, hp, hx⟩
      · rw [hf] at hc; cases hc
      · have hne : i0 ≠ i := by
          rintro rfl
          rcases hx with ⟨_, _, h | h⟩ | ⟨_, ⟨_, h⟩ | h | h⟩ <;> rw [h] at hi <;> cases hi
        refine Or.inr ⟨i0, bf, af, hnd, hni, fun j hj => ?_, ?_⟩
        · by_cases hji : j = i
          · subst hji
            simp only [Function.update_self, text_some]
            have := hp j hj
            rw [hi] at this
            exact Or.inl ⟨rfl, this⟩
          · simp only [Function.update_of_ne hji]; exact hp j hj
        · simp only [Function.update_of_ne hne]; exact hx
    | flushNew i c' pos a b hi hc hb =>
      have hb' := hb rfl
      subst hb'
      rw [List.append_nil] at hi
      rcases ih with ⟨hf, _⟩ | ⟨i0, bf, af, hnd, hni, hp, hx⟩
      · rw [hf] at hc; cases hc
      · have hii : i = i0 := by
          by_contra hne
          have := hp i hne
          rw [hi] at this
          exact this
        subst hii
        refine Or.inr ⟨i, bf, af, hnd, hni, fun j hj => by simp only [Function.update_of_ne hj]; exact hp j hj, Or.inr ?_⟩
        simp only [Function.update_self]
        refine ⟨?_, Or.inl ⟨_, rfl⟩⟩
        rcases hx with ⟨haf, hf, h | h⟩ | ⟨hf, ⟨_, h⟩ | h | h⟩
        · rw [hi] at h
          cases h
          rw [hf] at hc
          cases hc
          subst haf
          rw [overwrite_zero]
          simp [rows]
        · rw [hi] at h; cases h
        · rw [hi] at h
          cases h
          rw [overwrite_nil, ← hc, hf]
        · rw [hi] at h; cases h
        · rw [hi] at h; cases h
    | flushOld i c' a b hi hc hb =>
      have hb' := hb rfl
      subst hb'
      rw [List.append_nil] at hi
      rcases ih with ⟨hf, _⟩ | ⟨i0, bf, af, hnd, hni, hp, hx⟩
      · rw [hf] at hc; cases hc
      · have hne : i0 ≠ i := by
          rintro rfl
          rcases hx with ⟨_, _, h | h⟩ | ⟨_, ⟨_, h⟩ | h | h⟩ <;> rw [h] at hi <;> cases hi
        have hi' := hp i (Ne.symm hne)
        rw [hi] at hi'
        rcases hi' with ⟨ha, hno⟩ | ⟨ha, hin⟩
        · have hother : ∀ j, j ≠ i0 → ∀ order, WholeAt (rowText (runs j)) j (bf ++ af) (w1.procs j) → order = bf ++ af ++ [i] →
              WholeAt (rowText (runs j)) j order (Function.update w1.procs i (.appending []) j) := by
            intro j hj order h1 h2
            subst h2
            by_cases hji : j = i
            · subst hji
              simp only [Function.update_self]
              exact Or.inr ⟨rfl, by simp⟩
            · simp only [Function.update_of_ne hji]
              exact h1.push hji
          rcases hx with ⟨haf, hf, h⟩ | ⟨hf, h⟩
          · subst haf
            rw [List.append_nil] at hnd hni hno
            refine Or.inr ⟨i0, bf ++ [i], [], ?_, ?_, fun j hj => hother j hj _ (hp j hj) (by simp), Or.inl ⟨rfl, ?_, ?_⟩⟩
            · rw [List.append_nil]; exact snoc_nodup hnd hno
            · simp [hni, hne]
            · rw [hf] at hc
              cases hc
              rw [rows_snoc, ha]
            · simp only [Function.update_of_ne hne]; exact h
          · refine Or.inr ⟨i0, bf, af ++ [i], ?_, ?_, fun j hj => hother j hj _ (hp j hj) (by simp), Or.inr ⟨?_, ?_⟩⟩
            · rw [← List.append_assoc]; exact snoc_nodup hnd hno
            · rw [← List.append_assoc, List.mem_append, not_or]
              exact ⟨hni, by simpa using hne⟩
            · rw [hf] at hc
              cases hc
              rw [rows_snoc, ha]
              simp
            · simp only [Function.update_of_ne hne]; exact h
        · refine Or.inr ⟨i0, bf, af, hnd, hni, fun j hj => ?_, ?_⟩
          · by_cases hji : j = i
            · subst hji
              simp only [Function.update_self]
              exact Or.inr ⟨rfl, hin⟩
            · simp only [Function.update_of_ne hji]; exact hp j hj
          · simp only [Function.update_of_ne hne, ha, List.append_nil, ← hc]; exact hx
    | close i hi =>
      rcases ih with ⟨hf, hp⟩ | ⟨i0, bf, af, hnd, hni, hp, hx⟩
      · rcases hi with ⟨pos, hi⟩ | hi <;> rcases hp i with h | h <;> rw [h] at hi <;> cases hi
      · refine Or.inr ⟨i0, bf, af, hnd, hni, fun j hj => ?_, ?_⟩
        · by_cases hji : j = i
          · subst hji
            simp only [Function.update_self]
            have := hp j hj
            rcases hi with ⟨pos, hi⟩ | hi
            · rw [hi] at this; exact this.elim
            · rw [hi] at this
              rcases this with ⟨h1, _⟩ | ⟨_, h2⟩
              · exact absurd h1.symm (rowText_ne_nil _)
              · exact h2
          · simp only [Function.update_of_ne hji]; exact hp j hj
        · by_cases hji : i0 = i
          · subst hji
            simp only [Function.update_self]
            rcases hx with ⟨_, _, h | h⟩ | ⟨hf, _⟩
            · rcases hi with ⟨pos, hi⟩ | hi
              · rw [hi] at h
                have := (Proc.creating.inj h).2
                have h1 := congrArg List.length this
                have h2 := rowText_ne_nil (runs i0)
                rw [← List.length_pos_iff] at h2
                simp only [List.length_nil, List.length_append] at h1
                omega
              · rw [hi] at h; cases h
            · rcases hi with ⟨pos, hi⟩ | hi <;> rw [hi] at h <;> cases h
            · exact Or.inr ⟨hf, Or.inr (Or.inl trivial)⟩
          · simp only [Function.update_of_ne hji]; exact hx
    | stop i =>
      rcases ih with ⟨hf, hp⟩ | ⟨i0, bf, af, hnd, hni, hp, hx⟩
      · refine Or.inl ⟨hf, fun j => ?_⟩
        by_cases hj : j = i
        · subst hj; simp
        · simp only [Function.update_of_ne hj]; exact hp j
      · refine Or.inr ⟨i0, bf, af, hnd, hni, fun j hj => ?_, ?_⟩
        · by_cases hji : j = i
          · subst hji; simp only [Function.update_self]; trivial
          · simp only [Function.update_of_ne hji]; exact hp j hj
        · by_cases hji : i0 = i
          · subst hji
            simp only [Function.update_self]
            rcases hx with ⟨h1, h2, _⟩ | ⟨h1, _⟩
            · exact Or.inl ⟨h1, h2, Or.inr trivial⟩
            · exact Or.inr ⟨h1, Or.inr (Or.inr trivial)⟩
          · simp only [Function.update_of_ne hji]; exact hx

/-- If the file did not exist, every text is flushed at once and all simulations have closed the file, then it holds the header and the row
of the simulation that created it, then the rows written `after` that, each once and in full; of the rows written `before` it only what is longer
than the header and the row of the creator is left. -/
theorem C73_fresh [Nonempty ι] {w : World ι} (h : Reaches true runs ⟨none, fun _ => .idle⟩ w) (hc : ∀ i, w.procs i = .closed) :
    ∃ i before after, (i :: (before ++ after)).Nodup ∧ (∀ j, j ∈ i :: (before ++ after)) ∧
      w.file = some (headerText (runs i) ++ rowText (runs i) ++
        (before.flatMap fun j => rowText (runs j)).drop (headerText (runs i) ++ rowText (runs i)).length ++
        after.flatMap fun j => rowText (runs j)) := by
  rcases fresh_inv h with ⟨_, hp⟩ | ⟨i, bf, af, hnd, hni, hp, hx⟩
  · obtain ⟨i⟩ := ‹Nonempty ι›
    rcases hp i with h | h <;> rw [hc i] at h <;> cases h
  · refine ⟨i, bf, af, List.nodup_cons.2 ⟨hni, hnd⟩, fun j => ?_, ?_⟩
    · by_cases hj : j = i
      · simp [hj]
      · have := hp j hj
        rw [hc j] at this
        exact List.mem_cons_of_mem _ this
    · rcases hx with ⟨_, _, h | h⟩ | ⟨hf, _⟩
      · rw [hc i] at h; cases h
      · rw [hc i] at h; cases h
      · exact hf

/-- Two simulations started together: it can happen that the row of the second is lost without trace, unless it is longer than the header and the
row of the first. -/
theorem C73_lost (runs : Bool → Run)
    (hl : (rowText (runs true)).length ≤ (headerText (runs false) ++ rowText (runs false)).length) :
    ∃ w, Reaches true runs ⟨none, fun _ => .idle⟩ w ∧ (∀ i, w.procs i = .closed) ∧
      w.file = some (headerText (runs false) ++ rowText (runs false)) := by
  have ut : ∀ x y z : Proc, Function.update (fun b : Bool => cond b x y) true z = fun b => cond b z y := by
    intro x y z; funext b; cases b <;> rfl
  have uf : ∀ x y z : Proc, Function.update (fun b : Bool => cond b x y) false z = fun b => cond b x z := by
    intro x y z; funext b; cases b <;> rfl
  have hidle : (fun _ => Proc.idle : Bool → Proc) = fun b => cond b .idle .idle := by funext b; cases b <;> rfl
  set T := headerText (runs false) ++ rowText (runs false) with hT
  have s1 : Step true runs ⟨none, fun b => cond b .idle .idle⟩ ⟨some [], fun b => cond b .idle (.creating 0 T)⟩ := by
    have := Step.create (whole := true) (runs := runs) ⟨none, fun b => cond b .idle .idle⟩ false rfl rfl
    rwa [uf, text_none] at this
  have s2 : Step true runs ⟨some [], fun b => cond b .idle (.creating 0 T)⟩
      ⟨some [], fun b => cond b (.appending (rowText (runs true))) (.creating 0 T)⟩ := by
    have := Step.append (whole := true) (runs := runs) ⟨some [], fun b => cond b .idle (.creating 0 T)⟩ true [] rfl rfl
    rwa [ut] at this
  have s3 : Step true runs ⟨some [], fun b => cond b (.appending (rowText (runs true))) (.creating 0 T)⟩
      ⟨some (rowText (runs true)), fun b => cond b (.appending []) (.creating 0 T)⟩ := by
    have := Step.flushOld (whole := true) (runs := runs) ⟨some [], fun b => cond b (.appending (rowText (runs true))) (.creating 0 T)⟩
      true [] (rowText (runs true)) [] (by simp) rfl (fun _ => rfl)
    rwa [ut] at this
  have s4 : Step true runs ⟨some (rowText (runs true)), fun b => cond b (.appending []) (.creating 0 T)⟩
      ⟨some (rowText (runs true)), fun b => cond b .closed (.creating 0 T)⟩ := by
    have := Step.close (whole := true) (runs := runs) ⟨some (rowText (runs true)), fun b => cond b (.appending []) (.creating 0 T)⟩
      true (Or.inr rfl)
    rwa [ut] at this
  have s5 : Step true runs ⟨some (rowText (runs true)), fun b => cond b .closed (.creating 0 T)⟩
      ⟨some T, fun b => cond b .closed (.creating (0 + T.length) [])⟩ := by
    have := Step.flushNew (whole := true) (runs := runs) ⟨some (rowText (runs true)), fun b => cond b .closed (.creating 0 T)⟩
      false _ 0 T [] (by simp) rfl (fun _ => rfl)
    rw [uf, overwrite_zero, List.drop_eq_nil_of_le hl, List.append_nil] at this
    exact this
  have s6 : Step true runs ⟨some T, fun b => cond b .closed (.creating (0 + T.length) [])⟩ ⟨some T, fun b => cond b .closed .closed⟩ := by
    have := Step.close (whole := true) (runs := runs) ⟨some T, fun b => cond b .closed (.creating (0 + T.length) [])⟩
      false (Or.inl ⟨_, rfl⟩)
    rwa [uf] at this
  refine ⟨⟨some T, fun b => cond b .closed .closed⟩, ?_, fun i => ?_, rfl⟩
  · rw [hidle]
    exact (((((Relation.ReflTransGen.single s1).tail s2).tail s3).tail s4).tail s5).tail s6
  · cases i <;> rfl

/-- Simulations one after the other, then any number at the same time, each flushing at once, all with plain names and values: the lines of the
file are the header line, the rows of the first ones in their order, and the rows of the others in some order. -/
theorem C73_lines (r : Run) (rs : List Run) (hp : ∀ q ∈ r :: rs, PlainRun q ∧ NoTuple q) (hr : ∀ i, PlainRun (runs i) ∧ NoTuple (runs i))
    {c : List Char} (hc : (r :: rs).foldl (fun f r => (runFile f r).1) none = some c) {w : World ι}
    (h : Reaches true runs ⟨some c, fun _ => .idle⟩ w) (hw : ∀ i, w.procs i = .closed) :
    ∃ (order : List ι) (d : List Char), order.Nodup ∧ (∀ i : ι, i ∈ order) ∧ w.file = some d ∧
      lines [] d = headerLine r :: ((r :: rs).map rowLine ++ order.map (fun i => rowLine (runs i)) ++ [[]]) := by
  obtain ⟨order, h1, h2, h3, _⟩ := C73_rows (P := fun _ => .idle) (fun _ => Or.inl rfl) h
  refine ⟨order, _, h1, fun i => h3 i rfl (hw i), h2, ?_⟩
  obtain ⟨c', hc', hl, _⟩ := C50_lines r ((rs ++ order.map runs)) (by
    intro q hq
    rw [← List.cons_append, List.mem_append] at hq
    rcases hq with hq | hq
    · exact hp q hq
    · obtain ⟨i, _, rfl⟩ := List.mem_map.1 hq
      exact hr i)
  rw [C50_history] at hc hc'
  have e1 := Option.some.inj hc
  have e2 := Option.some.inj hc'
  have : c ++ (order.flatMap fun i => rowText (runs i)) = c' := by
    rw [← e1, ← e2, ← List.cons_append, List.flatMap_append, List.append_assoc, List.flatMap_map]
  rw [this, hl]
  simp [List.map_append, Function.comp_def]

/-! ### Concrete cases -/

example : ∃ w, Reaches true (fun _ : Bool => exampleRun) ⟨none, fun _ => .idle⟩ w ∧ (∀ i, w.procs i = .closed) ∧
    w.file = some (headerText exampleRun ++ rowText exampleRun) :=
  C73_lost _ (by simp)

end Flamingpy.Sim
