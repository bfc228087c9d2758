import Verif.Proofs.Peeling

/-! # The assumed library routines exist -/

namespace Flamingpy.UnionFind

open Flamingpy

variable {N Q : Type} [DecidableEq N] [DecidableEq Q]

theorem IsForest.cons {es : List (N × N × Q)} (h : IsForest es) {e : N × N × Q} (he : ¬ Conn (links es) e.1 e.2.1) :
    IsForest (e :: es) := by
  intro f hf hc
  rcases List.mem_cons.1 hf with rfl | hf
  · rw [List.erase_cons_head] at hc
    exact he hc
  · have hne : e ≠ f := by
      rintro rfl
      exact he (Conn.edge (List.mem_map.2 ⟨e, hf, rfl⟩))
    rw [List.erase_cons_tail (by simpa using hne), List.map_cons] at hc
    have hmono : ∀ {u v}, Conn (links (es.erase f)) u v → Conn (links es) u v := fun h => h.mono fun x hx => by
      obtain ⟨g, hg, rfl⟩ := List.mem_map.1 hx
      exact List.mem_map.2 ⟨g, List.mem_of_mem_erase hg, rfl⟩
    have hfe : Conn (links es) f.1 f.2.1 := Conn.edge (List.mem_map.2 ⟨f, hf, rfl⟩)
    rcases Conn.cons hc with h1 | ⟨h1, h2⟩ | ⟨h1, h2⟩
    · exact h f hf h1
    · exact he ((hmono h1).symm.trans (hfe.trans (hmono h2).symm))
    · exact he ((hmono h2).trans (hfe.symm.trans (hmono h1)))

theorem IsForest.nil : IsForest ([] : List (N × N × Q)) := fun _ h => by cases h

open Classical in
/-- Kruskal's algorithm. -/
noncomputable def kruskal : List (N × N × Q) → List (N × N × Q)
  | [] => []
  | e :: es => if Conn (links (kruskal es)) e.1 e.2.1 then kruskal es else e :: kruskal es

theorem spanLib_exists : Nonempty (SpanLib N Q) := by
  classical
  refine ⟨⟨kruskal, fun es => ?_, fun es => ?_, fun es => ?_⟩⟩
  · induction es with
    | nil => exact List.Sublist.refl _
    | cons e es ih =>
      rw [kruskal]
      split_ifs
      · exact ih.cons _
      · exact ih.cons_cons _
  · induction es with
    | nil => exact IsForest.nil
    | cons e es ih =>
      rw [kruskal]
      split_ifs with h
      · exact ih
      · exact ih.cons h
  · induction es with
    | nil => intro e he; cases he
    | cons e es ih =>
      rw [kruskal]
      intro f hf
      rcases List.mem_cons.1 hf with rfl | hf
      · split_ifs with h
        · exact h
        · exact Conn.edge (by simp)
      · split_ifs with h
        · exact ih f hf
        · exact (ih f hf).mono fun x hx => List.mem_cons_of_mem _ hx

open Classical in
/-- Components by repeated search. -/
noncomputable def compsAux (es : List (Sym2 N)) : ℕ → List N → List (List N)
  | 0, _ => []
  | _ + 1, [] => []
  | n + 1, a :: l => (a :: l.filter fun b => decide (Conn es a b)) ::
      compsAux es n (l.filter fun b => decide (¬ Conn es a b))

theorem compsAux_flatten (es : List (Sym2 N)) (n : ℕ) (l : List N) (h : l.length ≤ n) :
    (compsAux es n l).flatten.Perm l := by
  classical
  induction n generalizing l with
  | zero =>
    obtain rfl := List.length_eq_zero_iff.1 (Nat.le_zero.1 h)
    exact List.Perm.refl _
  | succ n ih =>
    cases l with
    | nil => exact List.Perm.refl _
    | cons a l =>
      rw [compsAux, List.flatten_cons]
      have hl : (l.filter fun b => decide (¬ Conn es a b)).length ≤ n :=
        (List.length_filter_le _ _).trans (Nat.le_of_succ_le_succ h)
      refine ((ih _ hl).append_left _).trans ?_
      rw [List.cons_append]
      refine List.Perm.cons _ ?_
      have := List.filter_append_perm (fun b => decide (Conn es a b)) l
      simpa using this

theorem compLib_exists : Nonempty (CompLib N) := by
  classical
  refine ⟨⟨fun ns es => compsAux es ns.length ns, fun ns es _ => compsAux_flatten es _ ns le_rfl, fun ns es => ?_,
    fun ns es _ => ?_⟩⟩
  · have : ∀ n l, [] ∉ compsAux es n l := by
      intro n
      induction n with
      | zero => intro l h; cases h
      | succ n ih =>
        intro l
        cases l with
        | nil => intro h; cases h
        | cons a l =>
          rw [compsAux, List.mem_cons, not_or]
          exact ⟨by simp, ih _⟩
    exact this _ _
  · have : ∀ n (l : List N), l.length ≤ n → ∀ c ∈ compsAux es n l, ∀ u ∈ c, ∀ v ∈ l, v ∈ c ↔ Conn es u v := by
      intro n
      induction n with
      | zero => intro l _ c hc; cases hc
      | succ n ih =>
        intro l hl c hc u hu v hv
        cases l with
        | nil => cases hc
        | cons a l =>
          have hl' : (l.filter fun b => decide (¬ Conn es a b)).length ≤ n :=
            (List.length_filter_le _ _).trans (Nat.le_of_succ_le_succ hl)
          rw [compsAux] at hc
          rcases List.mem_cons.1 hc with rfl | hc
          · have hau : ∀ x ∈ a :: l, x ∈ (a :: l.filter fun b => decide (Conn es a b)) ↔ Conn es a x := by
              intro x hx
              rw [List.mem_cons, List.mem_filter, decide_eq_true_eq]
              constructor
              · rintro (rfl | h)
                · exact Conn.refl _ _
                · exact h.2
              · intro h
                rcases List.mem_cons.1 hx with rfl | hx
                · exact Or.inl rfl
                · exact Or.inr ⟨hx, h⟩
            have hum : u ∈ a :: l := by
              rcases List.mem_cons.1 hu with rfl | hu
              · simp
              · exact List.mem_cons_of_mem _ (List.mem_filter.1 hu).1
            have h1 := (hau u hum).1 hu
            rw [hau v hv]
            exact ⟨fun h => h1.symm.trans h, fun h => h1.trans h⟩
          · have hsub : ∀ x ∈ c, x ∈ l.filter fun b => decide (¬ Conn es a b) := fun x hx =>
              (compsAux_flatten es n _ hl').subset (List.mem_flatten.2 ⟨c, hc, hx⟩)
            have hu' := hsub u hu
            by_cases hva : v ∈ l.filter fun b => decide (¬ Conn es a b)
            · exact ih _ hl' c hc u hu v hva
            · refine ⟨fun h => absurd (hsub v h) hva, fun h => ?_⟩
              exfalso
              rw [List.mem_filter, decide_eq_true_eq] at hu' hva
              rcases List.mem_cons.1 hv with rfl | hv
              · exact hu'.2 h.symm
              · have : Conn es a v := by
                  by_contra hc
                  exact hva ⟨hv, hc⟩
                exact hu'.2 (this.trans h.symm)
    exact this _ ns le_rfl

theorem iterOrder_exists : Nonempty (IterOrder N) := ⟨⟨fun _ l => l, fun _ l => List.Perm.refl l⟩⟩

end Flamingpy.UnionFind
