import Mathlib.Data.ZMod.Basic
import Mathlib.Algebra.BigOperators.Group.Finset.Basic
import Mathlib.Algebra.Order.BigOperators.Group.Finset
import Mathlib.Data.Finset.Card
import Mathlib.Tactic.LinearCombination
import Mathlib.Tactic.Ring
import Mathlib.Algebra.CharP.Two

/-!
# Trails in sets of edges without boundary

Edges `α` with one or two end points in `β`.
-/

namespace Flamingpy.Trails

variable {α β : Type*} [DecidableEq α] [DecidableEq β] (inc : α → Finset β)

/-- The boundary of a set of edges modulo two. -/
def bd (D : Finset α) (u : β) : ZMod 2 := ∑ x ∈ D, if u ∈ inc x then 1 else 0

/-- A run from one of the given points: every edge starts where the last one ended. -/
def Run : Finset β → List α → Prop
  | _, [] => True
  | N, y :: L => ∃ s ∈ N, s ∈ inc y ∧ Run ((inc y).erase s) L

theorem bd_erase {D : Finset α} {x : α} (hx : x ∈ D) (u : β) : bd inc (D.erase x) u = bd inc D u + if u ∈ inc x then 1 else 0 := by
  unfold bd
  rw [← Finset.add_sum_erase D _ hx]
  split
  · linear_combination - CharTwo.two_eq_zero (R := ZMod 2)
  · rw [zero_add, add_zero]

theorem zmod_cases (a : ZMod 2) : a = 0 ∨ a = 1 := by revert a; decide

theorem extend (n : ℕ) : ∀ (D : Finset α) (s : β) (A : Finset β), D.card = n → s ∉ A → (∀ u, bd inc D u = 1 ↔ u = s ∨ u ∈ A) →
    (∀ x ∈ D, (inc x).card ≤ 2) → ∃ L : List α, L.Nodup ∧ (∀ x ∈ L, x ∈ D) ∧ Run inc {s} L ∧
      (((∀ u, bd inc (D \ L.toFinset) u = 1 ↔ u ∈ A) ∧ ∃ x ∈ D, (inc x).card = 1) ∨
        ∃ t ∈ A, ∀ u, bd inc (D \ L.toFinset) u = 1 ↔ u ∈ A.erase t) := by
  induction n with
  | zero =>
    intro D s A hn hs hb hc
    rw [Finset.card_eq_zero] at hn
    have := (hb s).2 (Or.inl rfl)
    simp [hn, bd] at this
  | succ n ih =>
    intro D s A hn hs hb hc
    obtain ⟨x, hx, hsx⟩ : ∃ x ∈ D, s ∈ inc x := by
      by_contra hcon
      push Not at hcon
      have h1 := (hb s).2 (Or.inl rfl)
      rw [bd, Finset.sum_eq_zero fun x hx => if_neg (hcon x hx)] at h1
      exact absurd h1 (by decide)
    have hcard : (D.erase x).card = n := by rw [Finset.card_erase_of_mem hx, hn]; rfl
    have hcx := hc x hx
    have hN : ((inc x).erase s).card ≤ 1 := by rw [Finset.card_erase_of_mem hsx]; omega
    have hsd : ∀ L : List α, D \ (x :: L).toFinset = D.erase x \ L.toFinset := by
      intro L
      ext y
      simp only [List.toFinset_cons, Finset.mem_sdiff, Finset.mem_insert, Finset.mem_erase, List.mem_toFinset]
      tauto
    have hrun1 : Run inc {s} [x] := ⟨s, Finset.mem_singleton_self s, hsx, trivial⟩
    haveI : Nonempty β := ⟨s⟩
    rcases Finset.card_le_one_iff_subset_singleton.1 hN with ⟨t, ht⟩
    rcases Finset.subset_singleton_iff.1 ht with h0 | h0
    · have hix : inc x = {s} := by rw [← Finset.insert_erase hsx, h0]; rfl
      refine ⟨[x], by simp, by simpa using hx, hrun1, Or.inl ⟨fun u => ?_, x, hx, by rw [hix]; rfl⟩⟩
      rw [hsd, List.toFinset_nil, Finset.sdiff_empty, bd_erase inc hx, hix]
      simp only [Finset.mem_singleton]
      have := hb u
      by_cases hu : u = s
      · subst hu
        rw [this.2 (Or.inl rfl)]
        simp only [if_true, hs, iff_false]
        decide
      · simpa [hu] using this
    · have hix : inc x = {s, t} := by rw [← Finset.insert_erase hsx, h0]
      have hts : t ≠ s := by
        have : t ∈ (inc x).erase s := by rw [h0]; exact Finset.mem_singleton_self t
        exact (Finset.mem_erase.1 this).1
      by_cases htA : t ∈ A
      · refine ⟨[x], by simp, by simpa using hx, hrun1, Or.inr ⟨t, htA, fun u => ?_⟩⟩
        rw [hsd, List.toFinset_nil, Finset.sdiff_empty, bd_erase inc hx, hix]
        have := hb u
        simp only [Finset.mem_insert, Finset.mem_singleton, Finset.mem_erase]
        by_cases hu : u = s
        · subst hu
          rw [this.2 (Or.inl rfl)]
          simp only [true_or, if_true, hs, and_false, iff_false]
          decide
        · by_cases hut : u = t
          · subst hut
            rw [this.2 (Or.inr htA)]
            simp only [or_true, if_true, ne_eq, not_true_eq_false, false_and, iff_false]
            decide
          · simpa [hu, hut] using this
      · obtain ⟨L, h1, h2, h3, h4⟩ := ih (D.erase x) t A hcard htA (by
          intro u
          rw [bd_erase inc hx, hix]
          have := hb u
          simp only [Finset.mem_insert, Finset.mem_singleton]
          by_cases hu : u = s
          · subst hu
            rw [this.2 (Or.inl rfl)]
            simp only [if_true, hs, or_false, hts.symm, iff_false, true_or]
            decide
          · by_cases hut : u = t
            · subst hut
              have h0' : bd inc D u = 0 := by
                rcases zmod_cases (bd inc D u) with h | h
                · exact h
                · rcases this.1 h with h | h
                  · exact absurd h hu
                  · exact absurd h htA
              simp [h0']
            · simpa [hu, hut] using this) fun y hy => hc y (Finset.mem_of_mem_erase hy)
        refine ⟨x :: L, List.nodup_cons.2 ⟨fun hxL => absurd (h2 x hxL) (Finset.notMem_erase x D), h1⟩, ?_, ?_, ?_⟩
        · intro y hy
          rcases List.mem_cons.1 hy with rfl | hy
          · exact hx
          · exact Finset.mem_of_mem_erase (h2 y hy)
        · exact ⟨s, Finset.mem_singleton_self s, hsx, by rw [h0]; exact h3⟩
        · rw [hsd]
          rcases h4 with ⟨h4, y, hy, hy1⟩ | h4
          · exact Or.inl ⟨h4, y, Finset.mem_of_mem_erase hy, hy1⟩
          · exact Or.inr h4

/-- A non-empty set of edges without boundary contains a trail without boundary. -/
theorem exists_trail {C : Finset α} (hne : C.Nonempty) (hc : ∀ x ∈ C, (inc x).card = 1 ∨ (inc x).card = 2) (he : ∀ u, bd inc C u = 0) :
    ∃ x s L, s ∈ inc x ∧ (x :: L).Nodup ∧ (∀ y ∈ x :: L, y ∈ C) ∧ Run inc {s} L ∧ ∀ u, bd inc (C \ (x :: L).toFinset) u = 0 := by
  have hz : ∀ a : ZMod 2, ¬ a = 1 → a = 0 := fun a h => (zmod_cases a).resolve_right h
  have fin : ∀ {x s L}, x ∈ C → s ∈ inc x → L.Nodup → (∀ y ∈ L, y ∈ C.erase x) → Run inc {s} L →
      (∀ u, bd inc (C.erase x \ L.toFinset) u = 0) → s ∈ inc x ∧ (x :: L).Nodup ∧ (∀ y ∈ x :: L, y ∈ C) ∧ Run inc {s} L ∧
        ∀ u, bd inc (C \ (x :: L).toFinset) u = 0 := by
    intro x s L hx hs h1 h2 h3 h4
    refine ⟨hs, List.nodup_cons.2 ⟨fun hxL => absurd (h2 x hxL) (Finset.notMem_erase x C), h1⟩, ?_, h3, ?_⟩
    · intro y hy
      rcases List.mem_cons.1 hy with rfl | hy
      · exact hx
      · exact Finset.mem_of_mem_erase (h2 y hy)
    · have : C \ (x :: L).toFinset = C.erase x \ L.toFinset := by
        ext y
        simp only [List.toFinset_cons, Finset.mem_sdiff, Finset.mem_insert, Finset.mem_erase, List.mem_toFinset]
        tauto
      rw [this]
      exact h4
  have hle : ∀ x ∈ C, ∀ y ∈ C.erase x, (inc y).card ≤ 2 := fun x _ y hy => by
    rcases hc y (Finset.mem_of_mem_erase hy) with h | h <;> omega
  by_cases hone : ∃ x ∈ C, (inc x).card = 1
  · obtain ⟨x, hx, h1⟩ := hone
    obtain ⟨s, hs⟩ := Finset.card_eq_one.1 h1
    obtain ⟨L, h2, h3, h4, h5⟩ := extend inc _ (C.erase x) s ∅ rfl (by simp) (by
      intro u
      rw [bd_erase inc hx, he, hs]
      by_cases hu : u = s <;> simp [hu]) (hle x hx)
    refine ⟨x, s, L, fin hx (by rw [hs]; simp) h2 h3 h4 fun u => hz _ ?_⟩
    rcases h5 with ⟨h5, -⟩ | ⟨t, ht, -⟩
    · rw [h5]; simp
    · simp at ht
  · push Not at hone
    have hc2 : ∀ x ∈ C, (inc x).card = 2 := fun x hx => (hc x hx).resolve_left (hone x hx)
    obtain ⟨x, hx⟩ := hne
    obtain ⟨s, t, hst, hix⟩ := Finset.card_eq_two.1 (hc2 x hx)
    obtain ⟨L, h2, h3, h4, h5⟩ := extend inc _ (C.erase x) s {t} rfl (by simpa using hst) (by
      intro u
      rw [bd_erase inc hx, he, hix]
      by_cases hu : u = s <;> by_cases hut : u = t <;> simp [hu, hut]) (hle x hx)
    refine ⟨x, s, L, fin hx (by rw [hix]; simp) h2 h3 h4 fun u => hz _ ?_⟩
    rcases h5 with ⟨-, y, hy, hy1⟩ | ⟨t', ht', h5⟩
    · have := hc2 y (Finset.mem_of_mem_erase hy)
      omega
    · rw [h5]
      rw [Finset.mem_singleton] at ht'
      subst ht'
      simp

theorem bd_sdiff {C T : Finset α} (h : T ⊆ C) (u : β) : bd inc (C \ T) u + bd inc T u = bd inc C u := Finset.sum_sdiff h

/-- If a set of edges without boundary is counted oddly by `f`, so is a trail in it without boundary. -/
theorem odd_trail (f : α → ZMod 2) (n : ℕ) : ∀ C : Finset α, C.card ≤ n → (∀ x ∈ C, (inc x).card = 1 ∨ (inc x).card = 2) →
    (∀ u, bd inc C u = 0) → ∑ x ∈ C, f x = 1 → ∃ x s L, s ∈ inc x ∧ (x :: L).Nodup ∧ (∀ y ∈ x :: L, y ∈ C) ∧ Run inc {s} L ∧
      (∀ u, bd inc (x :: L).toFinset u = 0) ∧ ∑ y ∈ (x :: L).toFinset, f y = 1 := by
  induction n with
  | zero =>
    intro C hn _ _ h1
    rw [Nat.le_zero, Finset.card_eq_zero] at hn
    simp [hn] at h1
  | succ n ih =>
    intro C hn hc he h1
    have hne : C.Nonempty := by
      rw [Finset.nonempty_iff_ne_empty]
      rintro rfl
      simp at h1
    obtain ⟨x, s, L, hs, hnd, hsub, hrun, h0⟩ := exists_trail inc hne hc he
    have hT : (x :: L).toFinset ⊆ C := fun y hy => hsub y (List.mem_toFinset.1 hy)
    have hT0 : ∀ u, bd inc (x :: L).toFinset u = 0 := by
      intro u
      have := bd_sdiff inc hT u
      rwa [h0, he, zero_add] at this
    rcases zmod_cases (∑ y ∈ (x :: L).toFinset, f y) with hf | hf
    · obtain ⟨x', s', L', a, b, c, d, e, g⟩ := ih (C \ (x :: L).toFinset) (by
        rw [Finset.card_sdiff_of_subset hT]
        have : 0 < (x :: L).toFinset.card := Finset.card_pos.2 ⟨x, by simp⟩
        omega) (fun y hy => hc y (Finset.mem_sdiff.1 hy).1) h0 (by
        have := Finset.sum_sdiff (f := f) hT
        rwa [hf, add_zero, h1] at this)
      exact ⟨x', s', L', a, b, fun y hy => (Finset.mem_sdiff.1 (c y hy)).1, d, e, g⟩
    · exact ⟨x, s, L, hs, hnd, hsub, hrun, hT0, hf⟩

/-! ### Counting -/

/-- Runs of `k` edges after the edge `x`, starting from `N`; `mem s` contains the edges at `s`. -/
def runs (mem : β → Finset α) : ℕ → α → Finset β → Finset (List α)
  | 0, _, _ => {[]}
  | k + 1, x, N => N.biUnion fun s => ((mem s).erase x).biUnion fun y => (runs mem k y ((inc y).erase s)).image fun L => y :: L

theorem mem_runs {mem : β → Finset α} (L : List α) : ∀ (x : α) (N : Finset β), (∀ s, ∀ y ∈ L, s ∈ inc y → y ∈ mem s) → (x :: L).Nodup →
    Run inc N L → L ∈ runs inc mem L.length x N := by
  induction L with
  | nil => intro x N _ _ _; simp [runs]
  | cons y L ih =>
    intro x N hm hnd hr
    obtain ⟨s, hs, hsy, hr⟩ := hr
    rw [List.nodup_cons] at hnd
    simp only [List.length_cons, runs, Finset.mem_biUnion, Finset.mem_image]
    refine ⟨s, hs, y, Finset.mem_erase.2 ⟨fun e => hnd.1 (by simp [e]), hm s y (by simp) hsy⟩, L, ?_, rfl⟩
    exact ih y _ (fun s z hz => hm s z (by simp [hz])) hnd.2 hr

theorem runs_card {mem : β → Finset α} {q : ℕ} (hq : ∀ s, (mem s).card ≤ q + 1) (hi : ∀ s, ∀ y ∈ mem s, (inc y).card ≤ 2 ∧ s ∈ inc y ∧ ∀ t ∈ inc y, y ∈ mem t) (k : ℕ) :
    ∀ (x : α) (N : Finset β), N.card ≤ 1 → (∀ s ∈ N, x ∈ mem s) → (runs inc mem k x N).card ≤ q ^ k := by
  induction k with
  | zero => intro x N _ _; simp [runs]
  | succ k ih =>
    intro x N hN hx
    rw [runs]
    refine Finset.card_biUnion_le.trans ?_
    refine (Finset.sum_le_card_nsmul N _ (q ^ (k + 1)) fun s hs => ?_).trans ?_
    · refine Finset.card_biUnion_le.trans ?_
      refine (Finset.sum_le_card_nsmul _ _ (q ^ k) fun y hy => ?_).trans ?_
      · refine Finset.card_image_le.trans (ih y _ ?_ ?_)
        · obtain ⟨h1, h2, -⟩ := hi s y (Finset.mem_of_mem_erase hy)
          rw [Finset.card_erase_of_mem h2]
          omega
        · exact fun t ht => (hi s y (Finset.mem_of_mem_erase hy)).2.2 t (Finset.mem_of_mem_erase ht)
      · rw [Finset.card_erase_of_mem (hx s hs), smul_eq_mul, pow_succ, mul_comm]
        exact Nat.mul_le_mul_left _ (by have := hq s; omega)
    · rw [smul_eq_mul]
      exact (Nat.mul_le_mul_right _ hN).trans (by simp)

end Flamingpy.Trails
