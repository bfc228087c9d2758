import Verif.Proofs.Lemon

/-!
# The assumptions on LEMON can be met
-/

namespace Flamingpy.SurfaceCode

open Flamingpy

theorem perfect_even {n : ℕ} {M : List (ℕ × ℕ)} (h : IsPerfect n M) : n = 2 * M.length := by
  have h1 := h.2.length_eq
  rw [List.length_range] at h1
  have : ∀ M : List (ℕ × ℕ), (M.flatMap fun e => [e.1, e.2]).length = 2 * M.length := by
    intro M
    induction M with
    | nil => rfl
    | cons m M ih => rw [List.flatMap_cons, List.length_append, ih, List.length_cons]; simp; omega
  rw [this] at h1
  omega

theorem perfect_finite (n : ℕ) : {M | IsPerfect n M}.Finite := by
  set S : Set (ℕ × ℕ) := {e | e.1 < n ∧ e.2 < n} with hS
  have hSf : S.Finite := ((Set.finite_lt_nat n).prod (Set.finite_lt_nat n)).subset fun e he => he
  have : Finite S := hSf
  refine ((List.finite_length_eq S (n / 2)).image (List.map Subtype.val)).subset ?_
  intro M hM
  refine ⟨M.attach.map fun m => ⟨m.1, by have := hM.1 m.1 m.2; exact ⟨by omega, this.2⟩⟩, ?_, ?_⟩
  · have := perfect_even hM
    simp
    omega
  · rw [List.map_map]
    exact List.attach_map_subtype_val M

theorem perfect_exists {n : ℕ} (hn : Even n) : ∃ M, IsPerfect n M := by
  obtain ⟨k, rfl⟩ := hn
  induction k with
  | zero => exact ⟨[], by simp, by simp⟩
  | succ k ih =>
    obtain ⟨M, h1, h2⟩ := ih
    refine ⟨M ++ [(k + k, k + k + 1)], ?_, ?_⟩
    · intro e he
      rw [List.mem_append, List.mem_singleton] at he
      rcases he with he | rfl
      · have := h1 e he; omega
      · simp only; omega
    · rw [List.flatMap_append, show k + 1 + (k + 1) = (k + k) + 1 + 1 by omega, List.range_succ, List.range_succ,
        List.append_assoc]
      exact h2.append (by simp)

open Classical in
/-- Given an optimal matching for one weighted graph, some implementation returns it. -/
theorem lemonLib_with (n : ℕ) (W : ℕ → ℕ → ℚ) (M : List (ℕ × ℕ)) (hM : IsPerfect n M)
    (hmax : ∀ M', IsPerfect n M' → (M'.map fun e => W e.1 e.2).sum ≤ (M.map fun e => W e.1 e.2).sum) :
    ∃ ll : LemonLib, ll.run n W = M := by
  have key : ∀ (n' : ℕ) (W' : ℕ → ℕ → ℚ), ∃ M' : List (ℕ × ℕ), (∀ e ∈ M', e.1 < e.2 ∧ e.2 < n') ∧
      (Even n' → IsPerfect n' M') ∧
      (∀ M'', IsPerfect n' M'' → (M''.map fun e => W' e.1 e.2).sum ≤ (M'.map fun e => W' e.1 e.2).sum) ∧
      (n' = n → W' = W → M' = M) := by
    intro n' W'
    by_cases hc : n' = n ∧ W' = W
    · obtain ⟨rfl, rfl⟩ := hc
      exact ⟨M, hM.1, fun _ => hM, hmax, fun _ _ => rfl⟩
    · by_cases hev : Even n'
      · obtain ⟨M', h1, h2⟩ := Set.exists_max_image _ (fun M' : List (ℕ × ℕ) => (M'.map fun e => W' e.1 e.2).sum)
          (perfect_finite n') (perfect_exists hev)
        exact ⟨M', h1.1, fun _ => h1, fun M'' h => h2 M'' h, fun a b => absurd ⟨a, b⟩ hc⟩
      · exact ⟨[], by simp, fun h => absurd h hev, fun M'' h => absurd ⟨M''.length, by
          have := perfect_even h; omega⟩ hev, fun a b => absurd ⟨a, b⟩ hc⟩
  choose f h1 h2 h3 h4 using key
  exact ⟨⟨f, h1, h2, h3⟩, h4 n W rfl rfl⟩

theorem lemonLib_exists : Nonempty LemonLib := by
  obtain ⟨ll, _⟩ := lemonLib_with 0 (fun _ _ => 0) [] ⟨by simp, by simp⟩ fun M' h => by
    have := perfect_even h
    obtain rfl : M' = [] := List.length_eq_zero_iff.1 (by omega)
    exact le_refl _
  exact ⟨ll⟩

theorem nodeOrder_exists : Nonempty NodeOrder := by
  refine ⟨⟨fun E => ((PyDict.keys E).flatMap fun e => e.toFinset.toList).dedup, fun E => List.nodup_dedup _, ?_⟩⟩
  intro E x
  rw [List.mem_dedup, List.mem_flatMap]
  simp

end Flamingpy.SurfaceCode
