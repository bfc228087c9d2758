import Verif.Model.PyDict
import Mathlib.Data.List.Nodup
import Mathlib.Data.List.Perm.Basic

/-! Lemmas about dictionaries as association lists. -/

namespace Flamingpy.PyDict

variable {K V : Type} [DecidableEq K]

theorem get?_nil (k : K) : get? ([] : List (K × V)) k = none := rfl

theorem get?_cons (e : K × V) (d : List (K × V)) (k : K) :
    get? (e :: d) k = if e.1 = k then some e.2 else get? d k := by
  unfold get?
  by_cases h : e.1 = k <;> simp [h]

theorem get?_eq_none (d : List (K × V)) (k : K) : get? d k = none ↔ k ∉ keys d := by
  induction d with
  | nil => simp [get?_nil, keys]
  | cons e d ih =>
    rw [get?_cons]
    by_cases h : e.1 = k
    · simp [h, keys]
    · simp only [h, if_false, ih, keys, List.map_cons, List.mem_cons, not_or]
      exact ⟨fun h' => ⟨fun x => h x.symm, h'⟩, fun h' => h'.2⟩

theorem get?_mem {d : List (K × V)} {k : K} {v : V} (h : get? d k = some v) : (k, v) ∈ d := by
  induction d with
  | nil => simp [get?_nil] at h
  | cons e d ih =>
    rw [get?_cons] at h
    by_cases hk : e.1 = k
    · simp only [hk, if_true, Option.some.injEq] at h
      rw [← hk, ← h]; exact List.mem_cons_self
    · simp only [hk, if_false] at h
      exact List.mem_cons_of_mem _ (ih h)

theorem get?_isSome_iff (d : List (K × V)) (k : K) : (get? d k).isSome ↔ k ∈ keys d := by
  rw [← not_iff_not, ← get?_eq_none]; simp

theorem get?_iff_mem {d : List (K × V)} (h : (keys d).Nodup) (k : K) (v : V) :
    get? d k = some v ↔ (k, v) ∈ d := by
  refine ⟨get?_mem, fun hm => ?_⟩
  induction d with
  | nil => cases hm
  | cons e d ih =>
    rw [get?_cons]
    simp only [keys, List.map_cons, List.nodup_cons] at h
    rcases List.mem_cons.mp hm with rfl | hm
    · simp
    · have hne : e.1 ≠ k := fun hk => h.1 (by rw [hk]; exact List.mem_map_of_mem (f := (·.1)) hm)
      simp only [hne, if_false]
      exact ih h.2 hm

theorem set_of_not_mem {d : List (K × V)} {k : K} (v : V) (h : k ∉ keys d) :
    set d k v = d ++ [(k, v)] := by
  unfold set
  rw [if_neg]
  intro hc
  rw [List.any_eq_true] at hc
  obtain ⟨e, he, hk⟩ := hc
  exact h (by rw [← of_decide_eq_true hk]; exact List.mem_map_of_mem (f := (·.1)) he)

theorem set_of_mem {d : List (K × V)} {k : K} (v : V) (h : k ∈ keys d) :
    set d k v = d.map fun e => if e.1 = k then (k, v) else e := by
  unfold set
  rw [if_pos]
  rw [List.any_eq_true]
  obtain ⟨e, he, rfl⟩ := List.mem_map.mp h
  exact ⟨e, he, by simp⟩

theorem keys_set_of_mem {d : List (K × V)} {k : K} (v : V) (h : k ∈ keys d) :
    keys (set d k v) = keys d := by
  rw [set_of_mem v h]
  unfold keys
  rw [List.map_map]
  apply List.map_congr_left
  intro e _
  simp only [Function.comp]
  split_ifs with hk
  · exact hk.symm
  · rfl

theorem foldl_set_nodup (l d : List (K × V)) (h : (keys (d ++ l)).Nodup) :
    l.foldl (fun d e => set d e.1 e.2) d = d ++ l := by
  induction l generalizing d with
  | nil => simp
  | cons e l ih =>
    have hne : e.1 ∉ keys d := by
      simp only [keys, List.map_append, List.map_cons] at h
      rw [List.nodup_append] at h
      intro hm
      exact h.2.2 e.1 hm e.1 (by simp) rfl
    rw [List.foldl_cons, set_of_not_mem _ hne, ih]
    · simp
    · simpa using h

theorem ofPairs_nodup (l : List (K × V)) (h : (keys l).Nodup) : ofPairs l = l := by
  unfold ofPairs
  rw [foldl_set_nodup l [] (by simpa using h)]
  rfl

theorem get?_append_single {d : List (K × V)} {k : K} {v : V} (hk : k ∉ keys d) (k' : K) :
    get? (d ++ [(k, v)]) k' = if k = k' then some v else get? d k' := by
  induction d with
  | nil => simp [get?_cons, get?_nil]
  | cons e d ih =>
    simp only [keys, List.map_cons, List.mem_cons, not_or] at hk
    rw [List.cons_append, get?_cons, get?_cons, ih hk.2]
    by_cases h1 : e.1 = k'
    · have : k ≠ k' := fun h => hk.1 (h.trans h1.symm)
      simp [h1, this]
    · simp [h1]

omit [DecidableEq K] in
theorem keys_append (d d' : List (K × V)) : keys (d ++ d') = keys d ++ keys d' := List.map_append

theorem get?_pop (d : List (K × V)) (k k' : K) :
    get? (pop d k) k' = if k' = k then none else get? d k' := by
  induction d with
  | nil => simp [pop, get?_nil]
  | cons e d ih =>
    unfold pop at ih ⊢
    by_cases h : e.1 = k
    · simp only [h, ne_eq, not_true, decide_false, Bool.false_eq_true, not_false_iff,
        List.filter_cons_of_neg]
      rw [ih, get?_cons]
      by_cases h2 : k' = k
      · simp [h2]
      · simp [h2, h, Ne.symm h2]
    · rw [List.filter_cons_of_pos (by simpa using h), get?_cons, get?_cons, ih]
      by_cases h2 : k' = k
      · have : e.1 ≠ k' := by rw [h2]; exact h
        simp [h2, h]
      · simp [h2]

theorem set_of_not_mem_map (d : List (K × V)) (k : K) (v : V) (h : k ∉ keys d) :
    d = d.map fun e => if e.1 = k then (k, v) else e := by
  conv_lhs => rw [← List.map_id d]
  apply List.map_congr_left
  intro x hx
  have : x.1 ≠ k := fun hc => h (hc ▸ List.mem_map_of_mem (f := (·.1)) hx)
  simp [this]

theorem get?_set (d : List (K × V)) (k : K) (v : V) (k' : K) :
    get? (set d k v) k' = if k = k' then some v else get? d k' := by
  by_cases hm : k ∈ keys d
  · rw [set_of_mem v hm]
    induction d with
    | nil => cases hm
    | cons e d ih =>
      rw [List.map_cons, get?_cons, get?_cons]
      by_cases he : e.1 = k
      · simp only [he, if_true]
        by_cases hk : k = k'
        · simp [hk]
        · simp only [hk, if_false]
          by_cases hm' : k ∈ keys d
          · rw [ih hm']; simp [hk]
          · rw [← set_of_not_mem_map d k v hm']
      · simp only [he, if_false]
        have hm' : k ∈ keys d := by
          simp only [keys, List.map_cons, List.mem_cons] at hm
          rcases hm with h | h
          · exact absurd h.symm he
          · exact h
        rw [ih hm']
        by_cases hk : k = k'
        · subst hk; simp [he]
        · simp [hk]
  · rw [set_of_not_mem v hm, get?_append_single hm]

theorem mem_keys_set (d : List (K × V)) (k : K) (v : V) (k' : K) :
    k' ∈ keys (set d k v) ↔ k' = k ∨ k' ∈ keys d := by
  by_cases h : k ∈ keys d
  · rw [keys_set_of_mem v h]
    exact ⟨Or.inr, fun h' => h'.elim (fun e => e ▸ h) id⟩
  · rw [set_of_not_mem v h, keys_append]
    simp [keys, or_comm]

theorem keys_set_nodup {d : List (K × V)} (k : K) (v : V) (hd : (keys d).Nodup) :
    (keys (set d k v)).Nodup := by
  by_cases h : k ∈ keys d
  · rw [keys_set_of_mem v h]; exact hd
  · rw [set_of_not_mem v h, keys_append, List.nodup_append]
    refine ⟨hd, by simp [keys], ?_⟩
    rintro a ha b hb rfl
    simp [keys] at hb
    exact h (hb ▸ ha)

end Flamingpy.PyDict
