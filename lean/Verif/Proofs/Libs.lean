import Verif.Model.Mwpm
import Mathlib.Data.Set.Finite.List
import Mathlib.Data.Set.Finite.Lattice
import Mathlib.Data.Set.Finite.Lemmas
import Mathlib.Data.List.Nodup
import Mathlib.Algebra.BigOperators.Group.List.Basic
import Mathlib.Tactic.Linarith
import Mathlib.Tactic.FieldSimp
import Verif.Proofs.PyDict

/-!
# The assumed graph routines exist
-/

namespace Flamingpy.SurfaceCode

open Flamingpy

theorem walk_denominator {α : Type} [DecidableEq α] (E : List (Sym2 α × ℚ)) (hE : ∀ e ∈ E, 0 ≤ e.2) :
    ∃ D : ℕ, 0 < D ∧ ∀ p, ∃ n : ℕ, walkWeight E p * D = n := by
  have h1 : ∃ D : ℕ, 0 < D ∧ ∀ e ∈ E, ∃ n : ℕ, e.2 * D = n := by
    induction E with
    | nil => exact ⟨1, by norm_num, by simp⟩
    | cons e E ih =>
      obtain ⟨D, hD, h⟩ := ih fun e he => hE e (by simp [he])
      refine ⟨D * e.2.den, Nat.mul_pos hD e.2.den_pos, ?_⟩
      intro e' he'
      rw [List.mem_cons] at he'
      rcases he' with rfl | he'
      · have hn : 0 ≤ e'.2.num := Rat.num_nonneg.2 (hE e' (by simp))
        refine ⟨D * e'.2.num.toNat, ?_⟩
        have e1 := Rat.mul_den_eq_num e'.2
        have e2 : ((e'.2.num.toNat : ℤ) : ℚ) = e'.2.num := by rw [Int.toNat_of_nonneg hn]
        push_cast
        push_cast at e2
        rw [e2, ← e1, mul_left_comm]
      · obtain ⟨n, hn⟩ := h e' he'
        refine ⟨n * e.2.den, ?_⟩
        push_cast
        rw [← hn, mul_assoc]
  obtain ⟨D, hD, h⟩ := h1
  refine ⟨D, hD, fun p => ?_⟩
  induction p with
  | nil => exact ⟨0, by simp [walkWeight, walkSum]⟩
  | cons a p ih =>
    cases p with
    | nil => exact ⟨0, by simp [walkWeight, walkSum]⟩
    | cons b p =>
      obtain ⟨n, hn⟩ := ih
      have : ∃ m : ℕ, (PyDict.get? E s(a, b)).getD 0 * D = m := by
        cases hg : PyDict.get? E s(a, b) with
        | none => exact ⟨0, by simp⟩
        | some q => exact h _ (PyDict.get?_mem hg)
      obtain ⟨m, hm⟩ := this
      refine ⟨m + n, ?_⟩
      push_cast
      rw [← hm, ← hn, ← add_mul]
      rfl

theorem shortest_exists {α : Type} [DecidableEq α] (E : List (Sym2 α × ℚ)) (hE : ∀ e ∈ E, 0 ≤ e.2) (s t : α)
    (h : ∃ p, IsWalk E s t p) : ∃ p, IsWalk E s t p ∧ ∀ p', IsWalk E s t p' → walkWeight E p ≤ walkWeight E p' := by
  classical
  obtain ⟨D, hD, hn⟩ := walk_denominator E hE
  have hex : ∃ n : ℕ, ∃ p, IsWalk E s t p ∧ walkWeight E p * D = n := by
    obtain ⟨p, hp⟩ := h
    obtain ⟨n, hn⟩ := hn p
    exact ⟨n, p, hp, hn⟩
  obtain ⟨p, hp, he⟩ := Nat.find_spec hex
  refine ⟨p, hp, fun p' hp' => ?_⟩
  obtain ⟨n', hn'⟩ := hn p'
  have hle : Nat.find hex ≤ n' := Nat.find_min' hex ⟨p', hp', hn'⟩
  have hD' : (0 : ℚ) < D := by exact_mod_cast hD
  have hle' : walkWeight E p * D ≤ walkWeight E p' * D := by
    rw [he, hn']; exact_mod_cast hle
  exact le_of_mul_le_mul_right hle' hD'

open Classical in
/-- Shortest walks exist: the assumptions on the shortest-path routine can be met. -/
theorem pathLib_exists : Nonempty PathLib := by
  refine ⟨⟨fun E s t => if h : (∀ e ∈ E, 0 ≤ e.2) ∧ ∃ p, IsWalk E s t p then
    some (Classical.choose (shortest_exists E h.1 s t h.2)) else none, ?_, ?_⟩⟩
  · intro E s t p hE _ hf
    split at hf
    · rename_i h
      rw [Option.some.injEq] at hf
      subst hf
      exact Classical.choose_spec (shortest_exists E h.1 s t h.2)
    · cases hf
  · intro E s t hE _ hf p hp
    rw [dif_pos ⟨hE, p, hp⟩] at hf
    cases hf

theorem isMatching_length {α : Type} [DecidableEq α] (E : List (Sym2 α × ℚ)) (M : List (α × α)) (h : IsMatching E M) :
    M.length ≤ E.length := by
  have hnd : (M.map fun m => s(m.1, m.2)).Nodup := by
    have h2 := h.2
    rw [List.nodup_flatMap] at h2
    rw [List.Nodup, List.pairwise_map]
    refine h2.2.imp ?_
    intro a b hab he
    have : a.1 ∈ s(b.1, b.2) := by rw [← he]; simp
    rw [Sym2.mem_iff] at this
    exact hab (a := a.1) (by simp) (by simpa using this)
  have : (M.map fun m => s(m.1, m.2)).Subperm (PyDict.keys E) := hnd.subperm (by
    intro x hx
    obtain ⟨m, hm, rfl⟩ := List.mem_map.1 hx
    exact h.1 m hm)
  have := this.length_le
  simpa [PyDict.keys] using this

theorem matchings_finite {α : Type} [DecidableEq α] (E : List (Sym2 α × ℚ)) (n : ℕ) : {M | IsMatching E M ∧ M.length = n}.Finite := by
  set S : Set (α × α) := {m | s(m.1, m.2) ∈ PyDict.keys E} with hS
  have hSf : S.Finite := by
    have : S ⊆ ⋃ e ∈ (PyDict.keys E).toFinset, {m : α × α | s(m.1, m.2) = e} := by
      intro m hm
      simp only [Set.mem_iUnion]
      exact ⟨_, List.mem_toFinset.2 hm, rfl⟩
    refine Set.Finite.subset (Set.Finite.biUnion (Finset.finite_toSet _) ?_) this
    intro e _
    induction e using Sym2.ind with
    | _ a b =>
      refine Set.Finite.subset (Set.Finite.insert (a, b) (Set.finite_singleton (b, a))) ?_
      rintro ⟨x, y⟩ hxy
      rcases Sym2.eq_iff.1 hxy with ⟨rfl, rfl⟩ | ⟨rfl, rfl⟩ <;> simp
  have : Finite S := hSf
  refine ((List.finite_length_eq S n).image (List.map Subtype.val)).subset ?_
  rintro M ⟨hM, hn⟩
  refine ⟨M.attach.map fun m => ⟨m.1, hM.1 m.1 m.2⟩, by simpa using hn, ?_⟩
  rw [List.map_map]
  exact List.attach_map_subtype_val M

theorem best_matching {α : Type} [DecidableEq α] (E : List (Sym2 α × ℚ)) : ∃ M, IsMatching E M ∧
    (∀ M', IsMatching E M' → M'.length ≤ M.length) ∧
    ∀ M', IsMatching E M' → M'.length = M.length → matchWeight E M ≤ matchWeight E M' := by
  classical
  have h0 : IsMatching E [] := ⟨by simp, by simp⟩
  obtain ⟨M0, hM0, hmax⟩ : ∃ M, IsMatching E M ∧ ∀ M', IsMatching E M' → M'.length ≤ M.length := by
    have hP : ∃ n, ∃ M, IsMatching E M ∧ E.length - M.length = n := ⟨_, [], h0, rfl⟩
    obtain ⟨M, hM, he⟩ := Nat.find_spec hP
    refine ⟨M, hM, fun M' hM' => ?_⟩
    have := Nat.find_min' hP ⟨M', hM', rfl⟩
    have h1 := isMatching_length E M hM
    have h2 := isMatching_length E M' hM'
    omega
  obtain ⟨M, ⟨hM, hl⟩, hmin⟩ := Set.exists_min_image _ (matchWeight E) (matchings_finite E M0.length) ⟨M0, hM0, rfl⟩
  exact ⟨M, hM, fun M' h => hl ▸ hmax M' h, fun M' h1 h2 => hmin M' ⟨h1, h2.trans hl⟩⟩

/-- Optimal matchings exist: the assumptions on the matching routine can be met. -/
theorem matchLib_exists : Nonempty MatchLib :=
  ⟨⟨fun E => Classical.choose (best_matching E), fun E => (Classical.choose_spec (best_matching E)).1,
    fun E => (Classical.choose_spec (best_matching E)).2.1, fun E => (Classical.choose_spec (best_matching E)).2.2⟩⟩

end Flamingpy.SurfaceCode
