import Mathlib.Data.Rat.Defs
import Mathlib.Algebra.Order.Ring.Rat
import Mathlib.Algebra.BigOperators.Group.Finset.Basic
import Mathlib.Algebra.Order.BigOperators.Group.Finset
import Mathlib.Algebra.BigOperators.Group.List.Basic
import Mathlib.Data.List.Nodup
import Mathlib.Data.List.Perm.Basic
import Mathlib.Tactic.Linarith
import Mathlib.Algebra.Ring.Parity

/-!
# Pairing up the odd vertices of an edge set

A set of edges, each with one end (the other end on the boundary) or two ends, decomposes into paths
between its odd vertices or from an odd vertex to the boundary.
-/

namespace Flamingpy.TJoin

variable {ι Q : Type} [DecidableEq ι] [DecidableEq Q]

/-- Vertices of a pairing; a vertex without a partner is paired with the boundary. -/
def verts (P : List (ι × Option ι)) : List ι := P.flatMap fun e => e.1 :: e.2.toList

def pw (D : ι → ι → ℚ) (B : ι → ℚ) (e : ι × Option ι) : ℚ :=
  match e.2 with
  | none => B e.1
  | some u => D e.1 u

theorem verts_cons (e : ι × Option ι) (P : List (ι × Option ι)) : verts (e :: P) = e.1 :: e.2.toList ++ verts P := rfl

theorem verts_perm {P P' : List (ι × Option ι)} (h : P.Perm P') : (verts P).Perm (verts P') := h.flatMap_right _

section
variable {ends : Q → Finset ι} {w : Q → ℚ} {D : ι → ι → ℚ} {B : ι → ℚ} {hasB : Prop} {valid : ι → Prop}

/-- Replace `u` by its neighbour `t`. -/
theorem exchange (Dsymm : ∀ a b, D a b = D b a) {q : Q} {t u : ι}
    (hD : ∀ v, valid v → D t v ≤ w q + D u v) (hB : hasB → B t ≤ w q + B u) (P : List (ι × Option ι))
    (hn : (verts P).Nodup) (hv : ∀ x ∈ verts P, valid x) (hsing : ∀ e ∈ P, e.2 = none → hasB)
    (hu : u ∈ verts P) (ht : t ∉ verts P) :
    ∃ P', (verts P').Nodup ∧ (∀ x, x ∈ verts P' ↔ (x ∈ verts P ∧ x ≠ u) ∨ x = t) ∧
      (∀ e ∈ P', e.2 = none → hasB) ∧ (P'.map (pw D B)).sum ≤ w q + (P.map (pw D B)).sum := by
  unfold verts at hu
  rw [List.mem_flatMap] at hu
  obtain ⟨e, heP, hue⟩ := hu
  have hperm := List.perm_cons_erase heP
  set P0 := P.erase e with hP0
  have hvp := verts_perm hperm
  rw [verts_cons] at hvp
  have hn' := hvp.nodup_iff.1 hn
  have hmem : ∀ x, x ∈ verts P ↔ x ∈ e.1 :: e.2.toList ++ verts P0 := fun x => hvp.mem_iff
  have ht' : t ∉ e.1 :: e.2.toList ++ verts P0 := by rw [← hmem]; exact ht
  have hsum : (P.map (pw D B)).sum = pw D B e + (P0.map (pw D B)).sum := by
    rw [(hperm.map _).sum_eq]; simp
  have hsing0 : ∀ e' ∈ P0, e'.2 = none → hasB := fun e' he' => hsing e' (List.mem_of_mem_erase he')
  obtain ⟨a, o⟩ := e
  rw [List.mem_cons] at hue
  cases o with
  | none =>
    simp only [Option.toList_none, List.cons_append, List.nil_append, List.not_mem_nil, or_false] at hue hn' hmem ht'
    subst hue
    have hb := hsing (u, none) heP rfl
    refine ⟨(t, none) :: P0, ?_, ?_, ?_, ?_⟩
    · rw [verts_cons]
      simp only [Option.toList_none, List.cons_append, List.nil_append, List.nodup_cons]
      simp only [List.mem_cons, not_or] at ht'
      exact ⟨ht'.2, (List.nodup_cons.1 hn').2⟩
    · intro x
      rw [verts_cons, hmem]
      simp only [Option.toList_none, List.cons_append, List.nil_append, List.mem_cons]
      have := (List.nodup_cons.1 hn').1
      constructor
      · rintro (rfl | h)
        · exact Or.inr rfl
        · exact Or.inl ⟨Or.inr h, by rintro rfl; exact this h⟩
      · rintro (⟨rfl | h, h'⟩ | rfl)
        · exact absurd rfl h'
        · exact Or.inr h
        · exact Or.inl rfl
    · intro e' he' _; exact hb
    · rw [hsum, List.map_cons, List.sum_cons]
      simp only [pw]
      have := hB hb
      linarith
  | some b =>
    simp only [Option.toList_some, List.mem_singleton, List.cons_append, List.nil_append] at hue hn' hmem ht'
    simp only [List.nodup_cons, List.mem_cons, not_or] at hn' ht'
    obtain ⟨⟨hab, ha0⟩, hb0, hn0⟩ := hn'
    obtain ⟨hta, htb, ht0⟩ := ht'
    have key : ∀ v, valid v → (v = a ∧ u = b ∨ v = b ∧ u = a) → D t v ≤ w q + D a b →
        ∃ P', (verts P').Nodup ∧ (∀ x, x ∈ verts P' ↔ (x ∈ verts P ∧ x ≠ u) ∨ x = t) ∧
          (∀ e ∈ P', e.2 = none → hasB) ∧ (P'.map (pw D B)).sum ≤ w q + (P.map (pw D B)).sum := by
      intro v hvv hcase hle
      have hvt : t ≠ v := by rcases hcase with ⟨rfl, _⟩ | ⟨rfl, _⟩ <;> assumption
      have hv0 : v ∉ verts P0 := by rcases hcase with ⟨rfl, _⟩ | ⟨rfl, _⟩ <;> assumption
      have hu0 : u ∉ verts P0 := by rcases hcase with ⟨_, rfl⟩ | ⟨_, rfl⟩ <;> assumption
      have hvu : v ≠ u := by
        rcases hcase with ⟨rfl, rfl⟩ | ⟨rfl, rfl⟩
        · exact hab
        · exact Ne.symm hab
      refine ⟨(t, some v) :: P0, ?_, ?_, ?_, ?_⟩
      · rw [verts_cons]
        simp only [Option.toList_some, List.cons_append, List.nil_append, List.nodup_cons, List.mem_cons, not_or]
        exact ⟨⟨hvt, ht0⟩, hv0, hn0⟩
      · intro x
        rw [verts_cons, hmem]
        simp only [Option.toList_some, List.cons_append, List.nil_append, List.mem_cons]
        constructor
        · rintro (rfl | rfl | h)
          · exact Or.inr rfl
          · left
            refine ⟨?_, hvu⟩
            rcases hcase with ⟨rfl, _⟩ | ⟨rfl, _⟩
            · exact Or.inl rfl
            · exact Or.inr (Or.inl rfl)
          · exact Or.inl ⟨Or.inr (Or.inr h), by rintro rfl; exact hu0 h⟩
        · rintro (⟨rfl | rfl | h, h'⟩ | rfl)
          · rcases hcase with ⟨rfl, _⟩ | ⟨rfl, rfl⟩
            · exact Or.inr (Or.inl rfl)
            · exact absurd rfl h'
          · rcases hcase with ⟨rfl, rfl⟩ | ⟨rfl, _⟩
            · exact absurd rfl h'
            · exact Or.inr (Or.inl rfl)
          · exact Or.inr (Or.inr h)
          · exact Or.inl rfl
      · intro e' he' hnone
        rcases List.mem_cons.1 he' with rfl | he'
        · cases hnone
        · exact hsing0 e' he' hnone
      · rw [hsum, List.map_cons, List.sum_cons]
        simp only [pw]
        linarith
    have hva : valid a := hv a ((hmem a).2 (by simp))
    have hvb : valid b := hv b ((hmem b).2 (by simp))
    rcases hue with rfl | rfl
    · exact key b hvb (Or.inr ⟨rfl, rfl⟩) (hD b hvb)
    · exact key a hva (Or.inl ⟨rfl, rfl⟩) (by rw [Dsymm a u]; exact hD a hva)

/-- The odd vertices of an edge set can be paired at a cost of at most the weight of the set. -/
theorem tjoin (Dsymm : ∀ a b, D a b = D b a) (Dself : ∀ a, D a a = 0) (E : Finset Q)
    (hw : ∀ q ∈ E, 0 ≤ w q)
    (hends : ∀ q ∈ E, (∃ t, ends q = {t}) ∨ ∃ t u, t ≠ u ∧ ends q = {t, u})
    (hvalid : ∀ q ∈ E, ∀ t ∈ ends q, valid t)
    (hD : ∀ q ∈ E, ∀ t u, t ≠ u → ends q = {t, u} → ∀ v, valid v → D t v ≤ w q + D u v)
    (hB : ∀ q ∈ E, ∀ t u, t ≠ u → ends q = {t, u} → hasB → B t ≤ w q + B u)
    (hB1 : ∀ q ∈ E, ∀ t, ends q = {t} → hasB ∧ B t ≤ w q)
    (T : Finset ι) (hT : ∀ k, k ∈ T ↔ Odd (E.filter fun q => k ∈ ends q).card) :
    ∃ P, (verts P).Nodup ∧ (∀ x, x ∈ verts P ↔ x ∈ T) ∧ (∀ e ∈ P, e.2 = none → hasB) ∧
      (P.map (pw D B)).sum ≤ ∑ q ∈ E, w q := by
  induction hn : E.card using Nat.strong_induction_on generalizing E T with
  | _ n ih =>
    by_cases hTe : T = ∅
    · subst hTe
      refine ⟨[], by simp [verts], by simp [verts], by simp, ?_⟩
      simpa using Finset.sum_nonneg hw
    · obtain ⟨t, ht⟩ := Finset.nonempty_iff_ne_empty.2 hTe
      have hodd := (hT t).1 ht
      obtain ⟨q, hq⟩ : (E.filter fun q => t ∈ ends q).Nonempty := by
        rw [← Finset.card_pos]; exact hodd.pos
      obtain ⟨hqE, htq⟩ := Finset.mem_filter.1 hq
      set E' := E.erase q with hE'
      have hcard : E'.card < n := by rw [← hn]; exact Finset.card_erase_lt_of_mem hqE
      have hsub : ∀ q' ∈ E', q' ∈ E := fun q' h => Finset.mem_of_mem_erase h
      have hsumE : ∑ q' ∈ E, w q' = w q + ∑ q' ∈ E', w q' := by
        rw [hE', Finset.add_sum_erase _ _ hqE]
      have hcnt : ∀ k, (E.filter fun q' => k ∈ ends q').card =
          (E'.filter fun q' => k ∈ ends q').card + if k ∈ ends q then 1 else 0 := by
        intro k
        rw [hE', Finset.filter_erase]
        split_ifs with hk
        · rw [Finset.card_erase_of_mem (Finset.mem_filter.2 ⟨hqE, hk⟩)]
          have : 0 < (E.filter fun q' => k ∈ ends q').card :=
            Finset.card_pos.2 ⟨q, Finset.mem_filter.2 ⟨hqE, hk⟩⟩
          omega
        · rw [Finset.erase_eq_of_notMem]
          · simp
          · rw [Finset.mem_filter]; exact fun h => hk h.2
      have hodd' : ∀ k, Odd (E'.filter fun q' => k ∈ ends q').card ↔ (k ∈ T ↔ k ∉ ends q) := by
        intro k
        rw [hT k, hcnt k]
        split_ifs with hk
        · simp only [hk, not_true_eq_false, iff_false, Nat.odd_add_one, not_not]
        · simp [hk]
      have hIH := fun T' hT' => ih E'.card hcard E' (fun q' h => hw q' (hsub q' h)) (fun q' h => hends q' (hsub q' h))
        (fun q' h => hvalid q' (hsub q' h)) (fun q' h => hD q' (hsub q' h)) (fun q' h => hB q' (hsub q' h))
        (fun q' h => hB1 q' (hsub q' h)) T' hT' rfl
      rcases hends q hqE with ⟨a, ha⟩ | ⟨a, b, hab, hq2⟩
      · -- one end
        have : t = a := by rw [ha] at htq; simpa using htq
        subst this
        obtain ⟨hb, hle⟩ := hB1 q hqE t ha
        obtain ⟨P, h1, h2, h3, h4⟩ := hIH (T.erase t) (by
          intro k
          rw [hodd', ha, Finset.mem_erase, Finset.mem_singleton]
          by_cases hk : k = t
          · subst hk; simp [ht]
          · simp [hk])
        refine ⟨(t, none) :: P, ?_, ?_, ?_, ?_⟩
        · rw [verts_cons]
          simp only [Option.toList_none, List.cons_append, List.nil_append, List.nodup_cons]
          exact ⟨by rw [h2]; simp, h1⟩
        · intro x
          rw [verts_cons]
          simp only [Option.toList_none, List.cons_append, List.nil_append, List.mem_cons]
          rw [h2, Finset.mem_erase]
          by_cases hx : x = t
          · subst hx; simp [ht]
          · simp [hx]
        · intro e _ _; exact hb
        · rw [List.map_cons, List.sum_cons, hsumE]
          simp only [pw]
          linarith
      · -- two ends
        obtain ⟨u, htu, hqtu⟩ : ∃ u, t ≠ u ∧ ends q = {t, u} := by
          rw [hq2] at htq
          rw [Finset.mem_insert, Finset.mem_singleton] at htq
          rcases htq with rfl | rfl
          · exact ⟨b, hab, hq2⟩
          · exact ⟨a, Ne.symm hab, by rw [hq2, Finset.pair_comm]⟩
        have hvu : valid u := hvalid q hqE u (by rw [hqtu]; simp)
        by_cases huT : u ∈ T
        · obtain ⟨P, h1, h2, h3, h4⟩ := hIH ((T.erase t).erase u) (by
            intro k
            rw [hodd', hqtu, Finset.mem_erase, Finset.mem_erase, Finset.mem_insert, Finset.mem_singleton]
            by_cases hk : k = t
            · subst hk; simp [ht]
            · by_cases hk' : k = u
              · subst hk'; simp [huT]
              · simp [hk, hk'])
          refine ⟨(t, some u) :: P, ?_, ?_, ?_, ?_⟩
          · rw [verts_cons]
            simp only [Option.toList_some, List.cons_append, List.nil_append, List.nodup_cons, List.mem_cons, not_or]
            refine ⟨⟨htu, ?_⟩, ?_, h1⟩ <;> rw [h2] <;> simp
          · intro x
            rw [verts_cons]
            simp only [Option.toList_some, List.cons_append, List.nil_append, List.mem_cons]
            rw [h2, Finset.mem_erase, Finset.mem_erase]
            by_cases hx : x = t
            · subst hx; simp [ht]
            · by_cases hx' : x = u
              · subst hx'; simp [huT]
              · simp [hx, hx']
          · intro e he hnone
            rcases List.mem_cons.1 he with rfl | he
            · cases hnone
            · exact h3 e he hnone
          · rw [List.map_cons, List.sum_cons, hsumE]
            simp only [pw]
            have := hD q hqE t u htu hqtu u hvu
            rw [Dself, add_zero] at this
            linarith
        · obtain ⟨P, h1, h2, h3, h4⟩ := hIH (insert u (T.erase t)) (by
            intro k
            rw [hodd', hqtu, Finset.mem_insert, Finset.mem_erase, Finset.mem_insert, Finset.mem_singleton]
            by_cases hk : k = t
            · subst hk; simp [ht, htu]
            · by_cases hk' : k = u
              · subst hk'; simp [huT]
              · simp [hk, hk'])
          have hTv : ∀ x ∈ verts P, valid x := by
            intro x hx
            rw [h2, Finset.mem_insert] at hx
            rcases hx with rfl | hx
            · exact hvu
            · have hox := (hT x).1 (Finset.mem_of_mem_erase hx)
              obtain ⟨q', hq'⟩ : (E.filter fun q => x ∈ ends q).Nonempty := by
                rw [← Finset.card_pos]; exact hox.pos
              obtain ⟨hq'E, hxq'⟩ := Finset.mem_filter.1 hq'
              exact hvalid q' hq'E x hxq'
          obtain ⟨P', g1, g2, g3, g4⟩ := exchange (w := w) (q := q) (t := t) (u := u) Dsymm
            (hD q hqE t u htu hqtu) (hB q hqE t u htu hqtu) P h1 hTv h3 (by rw [h2]; simp)
            (by rw [h2]; simp [htu])
          refine ⟨P', g1, ?_, g3, ?_⟩
          · intro x
            rw [g2, h2, Finset.mem_insert, Finset.mem_erase]
            by_cases hx : x = t
            · subst hx; simp [ht]
            · by_cases hx' : x = u
              · subst hx'; simp [huT, hx]
              · simp [hx, hx']
          · rw [hsumE]; linarith

end

end Flamingpy.TJoin
