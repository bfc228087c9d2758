import Verif.Model.UnionFind
import Mathlib.Data.ZMod.Basic
import Mathlib.Algebra.BigOperators.Group.Finset.Basic
import Mathlib.Algebra.BigOperators.Group.List.Basic
import Mathlib.Algebra.CharP.Two
import Mathlib.Algebra.BigOperators.Ring.Finset
import Mathlib.Data.Set.Card

/-! # Peeling a forest -/

namespace Flamingpy.UnionFind

open Flamingpy

variable {N Q : Type}

/-! ### Connection -/

theorem Conn.refl (es : List (Sym2 N)) (u : N) : Conn es u u := Relation.ReflTransGen.refl

theorem Conn.trans {es : List (Sym2 N)} {u v w : N} (h : Conn es u v) (h' : Conn es v w) : Conn es u w :=
  Relation.ReflTransGen.trans h h'

theorem Conn.symm {es : List (Sym2 N)} {u v : N} (h : Conn es u v) : Conn es v u := by
  induction h with
  | refl => exact Conn.refl _ _
  | tail _ hs ih =>
    refine Conn.trans (Relation.ReflTransGen.single ?_) ih
    rw [Sym2.eq_swap]; exact hs

theorem Conn.mono {es es' : List (Sym2 N)} (hs : ∀ e ∈ es, e ∈ es') {u v : N} (h : Conn es u v) : Conn es' u v := by
  induction h with
  | refl => exact Relation.ReflTransGen.refl
  | tail _ hb ih => exact Relation.ReflTransGen.tail ih (hs _ hb)

theorem Conn.edge {es : List (Sym2 N)} {u v : N} (h : s(u, v) ∈ es) : Conn es u v := Relation.ReflTransGen.single h

theorem Conn.lift {es es' : List (Sym2 N)} (hs : ∀ a b, s(a, b) ∈ es → Conn es' a b) {u v : N} (h : Conn es u v) :
    Conn es' u v := by
  induction h with
  | refl => exact Conn.refl _ _
  | tail _ hb ih => exact ih.trans (hs _ _ hb)

theorem Conn.nil {u v : N} (h : Conn ([] : List (Sym2 N)) u v) : u = v := by
  induction h with
  | refl => rfl
  | tail _ hb _ => cases hb

theorem Conn.cons {a b : N} {es : List (Sym2 N)} {u v : N} (h : Conn (s(a, b) :: es) u v) :
    Conn es u v ∨ (Conn es u a ∧ Conn es b v) ∨ (Conn es u b ∧ Conn es a v) := by
  induction h with
  | refl => exact Or.inl (Conn.refl _ _)
  | @tail x y hx hs ih =>
    rcases List.mem_cons.1 hs with he | he
    · rcases Sym2.eq_iff.1 he with ⟨rfl, rfl⟩ | ⟨rfl, rfl⟩
      · rcases ih with h | ⟨h1, h2⟩ | ⟨h1, h2⟩
        · exact Or.inr (Or.inl ⟨h, Conn.refl _ _⟩)
        · exact Or.inr (Or.inl ⟨h1, Conn.refl _ _⟩)
        · exact Or.inl h1
      · rcases ih with h | ⟨h1, h2⟩ | ⟨h1, h2⟩
        · exact Or.inr (Or.inr ⟨h, Conn.refl _ _⟩)
        · exact Or.inl h1
        · exact Or.inr (Or.inr ⟨h1, Conn.refl _ _⟩)
    · have := Conn.edge he
      rcases ih with h | ⟨h1, h2⟩ | ⟨h1, h2⟩
      · exact Or.inl (h.trans this)
      · exact Or.inr (Or.inl ⟨h1, h2.trans this⟩)
      · exact Or.inr (Or.inr ⟨h1, h2.trans this⟩)

/-! ### Edge sets with a given boundary -/

variable [DecidableEq N]

/-- Number (mod 2) of ends of an edge at a node. -/
def inc (e : N × N × Q) (v : N) : ZMod 2 := (if e.1 = v then 1 else 0) + (if e.2.1 = v then 1 else 0)

def bdry (F : List (N × N × Q)) (v : N) : ZMod 2 := (F.map fun e => inc e v).sum

/-- The pairs of nodes joined by the edges. -/
abbrev links (es : List (N × N × Q)) : List (Sym2 N) := es.map fun e => s(e.1, e.2.1)

open Classical in
/-- Total parity of the component of a node. -/
noncomputable def compSum (ns : Finset N) (es : List (Sym2 N)) (par : N → ZMod 2) (v : N) : ZMod 2 :=
  ∑ u ∈ ns, if Conn es v u then par u else 0

theorem zmod2 (x : ZMod 2) : x + x = 0 := CharTwo.add_self_eq_zero x

open Classical in
theorem compSum_congr (ns : Finset N) {es es' : List (Sym2 N)} (par : N → ZMod 2) {v v' : N}
    (h : ∀ u, Conn es v u ↔ Conn es' v' u) : compSum ns es par v = compSum ns es' par v' := by
  unfold compSum
  apply Finset.sum_congr rfl
  intro u _
  simp only [h u]

theorem compSum_of_conn (ns : Finset N) {es : List (Sym2 N)} (par : N → ZMod 2) {v v' : N} (h : Conn es v v') :
    compSum ns es par v = compSum ns es par v' :=
  compSum_congr ns par fun _ => ⟨fun h' => h.symm.trans h', fun h' => h.trans h'⟩

open Classical in
/-- A parity assignment that is even on every component is the boundary of a set of edges. -/
theorem tjoin_exists (ns : Finset N) (es : List (N × N × Q)) (hes : ∀ e ∈ es, e.1 ∈ ns ∧ e.2.1 ∈ ns)
    (par : N → ZMod 2) (hpar : ∀ v ∈ ns, compSum ns (links es) par v = 0) :
    ∃ F : List (N × N × Q), F.Sublist es ∧ ∀ v ∈ ns, bdry F v = par v := by
  induction es generalizing par with
  | nil =>
    refine ⟨[], List.Sublist.refl _, fun v hv => ?_⟩
    have := hpar v hv
    unfold compSum at this
    have hc : ∀ u, Conn (links ([] : List (N × N × Q))) v u ↔ u = v :=
      fun u => ⟨fun h => (Conn.nil h).symm, fun h => h ▸ Conn.refl _ _⟩
    simp only [hc, Finset.sum_ite_eq', hv, if_true] at this
    rw [this]; rfl
  | cons e es ih =>
    obtain ⟨a, b, q⟩ := e
    have hab := hes (a, b, q) (by simp)
    simp only at hab
    have hes' : ∀ e ∈ es, e.1 ∈ ns ∧ e.2.1 ∈ ns := fun e he => hes e (by simp [he])
    change ∀ v ∈ ns, compSum ns (s(a, b) :: links es) par v = 0 at hpar
    have hmono : ∀ {u v}, Conn (links es) u v → Conn (s(a, b) :: links es) u v :=
      fun h => h.mono fun _ h => List.mem_cons_of_mem _ h
    have hedge : Conn (s(a, b) :: links es) a b := Conn.edge (by simp)
    by_cases hc : Conn (links es) a b
    · obtain ⟨F, h1, h2⟩ := ih hes' par fun v hv => by
        rw [← hpar v hv]
        apply compSum_congr
        intro u
        refine ⟨hmono, fun h => ?_⟩
        rcases Conn.cons h with h | ⟨h1, h2⟩ | ⟨h1, h2⟩
        · exact h
        · exact h1.trans (hc.trans h2)
        · exact h1.trans (hc.symm.trans h2)
      exact ⟨F, h1.cons _, h2⟩
    · set t := compSum ns (links es) par a with ht
      -- the sum over the joined component
      have hjoin : compSum ns (s(a, b) :: links es) par a = compSum ns (links es) par a + compSum ns (links es) par b := by
        unfold compSum
        rw [← Finset.sum_add_distrib]
        apply Finset.sum_congr rfl
        intro u _
        by_cases h1 : Conn (links es) a u
        · have h2 : ¬ Conn (links es) b u := fun h => hc (h1.trans h.symm)
          rw [if_pos (hmono h1), if_pos h1, if_neg h2, add_zero]
        · by_cases h2 : Conn (links es) b u
          · rw [if_pos (hedge.trans (hmono h2)), if_neg h1, if_pos h2, zero_add]
          · rw [if_neg, if_neg h1, if_neg h2, add_zero]
            intro h
            rcases Conn.cons h with h | ⟨_, h⟩ | ⟨_, h⟩
            · exact h1 h
            · exact h2 h
            · exact h1 h
      have hsum : compSum ns (links es) par a + compSum ns (links es) par b = 0 := by
        rw [← hjoin]; exact hpar a hab.1
      set par' : N → ZMod 2 := fun u => par u + ((if u = a then t else 0) + (if u = b then t else 0)) with hp'
      have hS : ∀ v, compSum ns (links es) par' v = compSum ns (links es) par v +
          ((if Conn (links es) v a then t else 0) + (if Conn (links es) v b then t else 0)) := by
        intro v
        unfold compSum
        have : ∀ u, (if Conn (links es) v u then par' u else 0) = (if Conn (links es) v u then par u else 0) +
            ((if u = a then (if Conn (links es) v a then t else 0) else 0) +
              (if u = b then (if Conn (links es) v b then t else 0) else 0)) := by
          intro u
          by_cases hu : Conn (links es) v u
          · simp only [if_pos hu, hp']
            by_cases hua : u = a
            · subst hua
              by_cases hub : u = b
              · subst hub; simp [hu]
              · simp [hu, hub]
            · by_cases hub : u = b
              · subst hub; simp [hu, hua]
              · simp [hua, hub]
          · simp only [if_neg hu]
            by_cases hua : u = a
            · subst hua
              by_cases hub : u = b
              · subst hub; simp [hu]
              · simp [hu, hub]
            · by_cases hub : u = b
              · subst hub; simp [hu, hua]
              · simp [hua, hub]
        simp only [this]
        rw [Finset.sum_add_distrib, Finset.sum_add_distrib, Finset.sum_ite_eq', Finset.sum_ite_eq', if_pos hab.1,
          if_pos hab.2]
      obtain ⟨F, h1, h2⟩ := ih hes' par' fun v hv => by
        rw [hS]
        by_cases hva : Conn (links es) v a
        · have hvb : ¬ Conn (links es) v b := fun h => hc (hva.symm.trans h)
          rw [if_pos hva, if_neg hvb, add_zero, compSum_of_conn ns par hva, zmod2]
        · by_cases hvb : Conn (links es) v b
          · rw [if_neg hva, if_pos hvb, zero_add, compSum_of_conn ns par hvb, add_comm]
            exact hsum
          · rw [if_neg hva, if_neg hvb, add_zero, add_zero, ← hpar v hv]
            apply compSum_congr
            intro u
            refine ⟨hmono, fun h => ?_⟩
            rcases Conn.cons h with h | ⟨h, _⟩ | ⟨h, _⟩
            · exact h
            · exact absurd h hva
            · exact absurd h hvb
      have ht2 : t = 0 ∨ t = 1 := by
        have : ∀ x : ZMod 2, x = 0 ∨ x = 1 := by decide
        exact this t
      rcases ht2 with h0 | h0
      · exact ⟨F, h1.cons _, fun v hv => by rw [h2 v hv, hp']; simp [h0]⟩
      · refine ⟨(a, b, q) :: F, h1.cons_cons _, fun v hv => ?_⟩
        have h3 := h2 v hv
        unfold bdry at h3 ⊢
        rw [List.map_cons, List.sum_cons, h3, hp']
        simp only [inc, h0, eq_comm (a := v)]
        rw [add_comm, add_assoc, zmod2, add_zero]

/-! ### Leaves of a forest -/

variable [DecidableEq Q]

theorem erase_swap_mem {es : List (N × N × Q)} {e f : N × N × Q} (hne : f ≠ e) (hf : f ∈ es) : f ∈ es.erase e :=
  (List.mem_erase_of_ne hne).2 hf

theorem IsForest.nodup {es : List (N × N × Q)} (h : IsForest es) : es.Nodup := by
  rw [List.nodup_iff_count_le_one]
  intro e
  by_contra hc
  push Not at hc
  have he : e ∈ es := List.count_pos_iff.1 (by omega)
  have he' : e ∈ es.erase e := by
    rw [← List.count_pos_iff, List.count_erase_self]; omega
  exact h e he (Conn.edge (List.mem_map.2 ⟨e, he', rfl⟩))

theorem IsForest.sublist {es es' : List (N × N × Q)} (h : IsForest es) (hs : es'.Sublist es) : IsForest es' := by
  intro e he hc
  refine h e (hs.subset he) (hc.mono fun x hx => ?_)
  obtain ⟨f, hf, rfl⟩ := List.mem_map.1 hx
  refine List.mem_map.2 ⟨f, ?_, rfl⟩
  have hnd := h.nodup
  rw [(hnd.sublist hs).mem_erase_iff] at hf
  rw [hnd.mem_erase_iff]
  exact ⟨hf.1, hs.subset hf.2⟩

theorem IsForest.no_loop {es : List (N × N × Q)} (h : IsForest es) {e : N × N × Q} (he : e ∈ es) : e.1 ≠ e.2.1 := by
  intro hl
  apply h e he
  rw [← hl]
  exact Conn.refl _ _

theorem degree_pos {es : List (N × N × Q)} {v : N} : 0 < degree es v ↔ ∃ e ∈ es, e.1 = v ∨ e.2.1 = v := by
  unfold degree
  rw [List.countP_pos_iff]
  simp

/-- An edge oriented away from one of its ends. -/
def Points (e : N × N × Q) (v : N) : Prop := e.1 = v ∨ e.2.1 = v

open Classical in
/-- Edges beyond `v` when `e` is removed. -/
noncomputable def side (es : List (N × N × Q)) (e : N × N × Q) (v : N) : Finset (N × N × Q) :=
  (es.erase e).toFinset.filter fun f => Conn (links (es.erase e)) v f.1

theorem mem_side {es : List (N × N × Q)} (hnd : es.Nodup) {e : N × N × Q} {v : N} {f : N × N × Q} :
    f ∈ side es e v ↔ (f ≠ e ∧ f ∈ es) ∧ Conn (links (es.erase e)) v f.1 := by
  classical
  unfold side
  rw [Finset.mem_filter, List.mem_toFinset, hnd.mem_erase_iff]

theorem exists_leaf {es : List (N × N × Q)} (h : IsForest es) (hne : es ≠ []) : ∃ v, degree es v = 1 := by
  by_contra hno
  push Not at hno
  have hnd := h.nodup
  have key : ∀ n (e : N × N × Q) (v : N), e ∈ es → (e.1 = v ∨ e.2.1 = v) → (side es e v).card = n → False := by
    intro n
    induction n using Nat.strong_induction_on with
    | _ n ih =>
      intro e v he hv hcard
      -- another edge at `v`
      have hdeg : 2 ≤ degree es v := by
        have h1 : 0 < degree es v := degree_pos.2 ⟨e, he, hv⟩
        have := hno v
        omega
      obtain ⟨f, hf, hfe, hfv⟩ : ∃ f ∈ es, f ≠ e ∧ (f.1 = v ∨ f.2.1 = v) := by
        unfold degree at hdeg
        rw [(List.perm_cons_erase he).countP_eq, List.countP_cons_of_pos (by simpa using hv)] at hdeg
        obtain ⟨f, hf, hfv⟩ := List.countP_pos_iff.1 (Nat.lt_of_succ_le (Nat.le_of_succ_le_succ hdeg))
        rw [hnd.mem_erase_iff] at hf
        exact ⟨f, hf.2, hf.1, by simpa using hfv⟩
      obtain ⟨w, hw, hwv⟩ : ∃ w, (f.1 = w ∨ f.2.1 = w) ∧ s(v, w) = s(f.1, f.2.1) := by
        rcases hfv with rfl | rfl
        · exact ⟨f.2.1, Or.inr rfl, rfl⟩
        · exact ⟨f.1, Or.inl rfl, Sym2.eq_swap⟩
      have hbridge : ¬ Conn (links (es.erase f)) w v := by
        intro hc
        apply h f hf
        rcases Sym2.eq_iff.1 hwv with ⟨h1, h2⟩ | ⟨h1, h2⟩
        · rw [← h1, ← h2]; exact hc.symm
        · rw [← h1, ← h2]; exact hc
      have hvw : Conn (links (es.erase e)) v w :=
        Conn.edge (by rw [hwv]; exact List.mem_map.2 ⟨f, erase_swap_mem hfe hf, rfl⟩)
      obtain ⟨u, huv⟩ : ∃ u, s(u, v) = s(e.1, e.2.1) := by
        rcases hv with rfl | rfl
        · exact ⟨e.2.1, Sym2.eq_swap⟩
        · exact ⟨e.1, rfl⟩
      have huvm : s(u, v) ∈ links (es.erase f) := by
        rw [huv]; exact List.mem_map.2 ⟨e, erase_swap_mem (Ne.symm hfe) he, rfl⟩
      have hstep : ∀ x, Conn (links (es.erase f)) w x → Conn (links (es.erase e)) w x := by
        intro x hx
        induction hx with
        | refl => exact Conn.refl _ _
        | @tail y z hy hs ih' =>
          obtain ⟨g, hg, hge⟩ := List.mem_map.1 hs
          by_cases hge' : g = e
          · exfalso
            subst hge'
            rw [← huv] at hge
            apply hbridge
            rcases Sym2.eq_iff.1 hge with ⟨rfl, rfl⟩ | ⟨rfl, rfl⟩
            · exact Relation.ReflTransGen.tail hy huvm
            · exact hy
          · refine ih'.trans (Conn.edge (List.mem_map.2 ⟨g, erase_swap_mem hge' ?_, hge⟩))
            exact List.mem_of_mem_erase hg
      have hlt : (side es f w).card < n := by
        rw [← hcard]
        apply Finset.card_lt_card
        rw [Finset.ssubset_iff_of_subset]
        · refine ⟨f, ?_, ?_⟩
          · rw [mem_side hnd]
            refine ⟨⟨hfe, hf⟩, ?_⟩
            rcases Sym2.eq_iff.1 hwv with ⟨h1, h2⟩ | ⟨h1, h2⟩
            · rw [← h1]; exact Conn.refl _ _
            · rw [← h2]; exact hvw
          · rw [mem_side hnd]
            tauto
        · intro g hg
          rw [mem_side hnd] at hg ⊢
          refine ⟨⟨?_, hg.1.2⟩, hvw.trans (hstep _ hg.2)⟩
          rintro rfl
          apply hbridge
          rcases Sym2.eq_iff.1 huv with ⟨h1, h2⟩ | ⟨h1, h2⟩
          · rw [← h1] at hg
            exact Relation.ReflTransGen.tail hg.2 huvm
          · rw [← h2] at hg
            exact hg.2
      exact ih _ hlt f w hf hw rfl
  obtain ⟨e, es', rfl⟩ := List.exists_cons_of_ne_nil hne
  exact key _ e e.1 (by simp) (Or.inl rfl) rfl

/-! ### Trimming -/

/-- The parity as a number mod 2. -/
def bz (b : Bool) : ZMod 2 := if b then 1 else 0

theorem bz_not (b : Bool) : bz (!b) = bz b + 1 := by cases b <;> decide

theorem bz_inj {a b : Bool} (h : bz a = bz b) : a = b := by revert h; cases a <;> cases b <;> decide

/-- The edges whose qubit is in the recovery set. -/
def recEdges (es : List (N × N × Q)) (rec : List Q) : List (N × N × Q) := es.filter fun e => decide (e.2.2 ∈ rec)

/-- Invariant of the peeling: `es0`, `par0` are the initial values. -/
structure PInv (ns : List N) (es0 : List (N × N × Q)) (par0 : N → Bool) (es : List (N × N × Q)) (par : N → Bool)
    (rec : List Q) : Prop where
  sub : es.Sublist es0
  recSub : ∀ q ∈ rec, q ∈ es0.map (·.2.2)
  recNodup : rec.Nodup
  disj : ∀ e ∈ es, e.2.2 ∉ rec
  join : ∃ F : List (N × N × Q), F.Sublist es ∧ ∀ v ∈ ns, bdry F v = bz (par v)
  total : ∀ v ∈ ns, bz (par0 v) = bz (par v) + bdry (recEdges es0 rec) v

theorem bdry_perm {F F' : List (N × N × Q)} (h : F.Perm F') (v : N) : bdry F v = bdry F' v :=
  (h.map _).sum_eq

theorem bdry_cons (e : N × N × Q) (F : List (N × N × Q)) (v : N) : bdry (e :: F) v = inc e v + bdry F v := rfl

theorem bdry_zero {F : List (N × N × Q)} {v : N} (h : ∀ e ∈ F, e.1 ≠ v ∧ e.2.1 ≠ v) : bdry F v = 0 := by
  apply List.sum_eq_zero
  intro x hx
  obtain ⟨e, he, rfl⟩ := List.mem_map.1 hx
  simp [inc, h e he]

/-- Adding a qubit to the recovery set. -/
theorem bdry_recEdges {es0 : List (N × N × Q)} (hq : (es0.map (·.2.2)).Nodup) {e : N × N × Q} (he : e ∈ es0)
    {rec : List Q} (hr : e.2.2 ∉ rec) (v : N) :
    bdry (recEdges es0 (rec ++ [e.2.2])) v = inc e v + bdry (recEdges es0 rec) v := by
  rw [← bdry_cons]
  apply bdry_perm
  have hnd : es0.Nodup := hq.of_map _
  unfold recEdges
  rw [List.perm_ext_iff_of_nodup (hnd.filter _)
    (List.nodup_cons.2 ⟨by simp [hr], hnd.filter _⟩)]
  intro f
  simp only [List.mem_filter, List.mem_append, decide_eq_true_eq, List.mem_cons, List.not_mem_nil, or_false]
  constructor
  · rintro ⟨h1, h2 | h2⟩
    · exact Or.inr ⟨h1, h2⟩
    · exact Or.inl (List.inj_on_of_nodup_map hq h1 he h2)
  · rintro (rfl | ⟨h1, h2⟩)
    · exact ⟨he, Or.inr rfl⟩
    · exact ⟨h1, Or.inl h2⟩

/-- Removing the only edge at a leaf. -/
theorem PInv.step {ns : List N} {es0 : List (N × N × Q)} {par0 : N → Bool} (hfor : IsForest es0)
    (hq : (es0.map (·.2.2)).Nodup) (hns : ∀ e ∈ es0, e.1 ∈ ns ∧ e.2.1 ∈ ns) {es : List (N × N × Q)}
    {par : N → Bool} {rec : List Q} (h : PInv ns es0 par0 es par rec) {e : N × N × Q} (he : e ∈ es)
    {l n : N} (hl : e.1 = l ∧ e.2.1 = n ∨ e.1 = n ∧ e.2.1 = l) (hdeg : degree es l = 1) :
    PInv ns es0 par0 (es.erase e)
      (if par l then Function.update (Function.update par l false) n (!Function.update par l false n) else par)
      (if par l then (if e.2.2 ∈ rec then rec else rec ++ [e.2.2]) else rec) := by
  have he0 := h.sub.subset he
  have hnd0 := hfor.nodup
  have hnd := hnd0.sublist h.sub
  have hln : l ≠ n := by
    have := hfor.no_loop he0
    rcases hl with ⟨rfl, rfl⟩ | ⟨rfl, rfl⟩
    · exact this
    · exact this.symm
  have hinc : ∀ v, inc e v = (if l = v then 1 else 0) + (if n = v then 1 else 0) := by
    intro v
    rcases hl with ⟨rfl, rfl⟩ | ⟨rfl, rfl⟩
    · rfl
    · exact add_comm _ _
  have honly : ∀ f ∈ es, f ≠ e → f.1 ≠ l ∧ f.2.1 ≠ l := by
    intro f hf hfe
    by_contra hc
    have hfl : f.1 = l ∨ f.2.1 = l := by tauto
    have hel : e.1 = l ∨ e.2.1 = l := by tauto
    unfold degree at hdeg
    rw [(List.perm_cons_erase he).countP_eq, List.countP_cons_of_pos (by simpa using hel)] at hdeg
    have : 0 < (es.erase e).countP fun e => decide (e.1 = l ∨ e.2.1 = l) :=
      List.countP_pos_iff.2 ⟨f, erase_swap_mem hfe hf, by simpa using hfl⟩
    omega
  have hlns : l ∈ ns := by
    have := hns e he0
    rcases hl with ⟨rfl, rfl⟩ | ⟨rfl, rfl⟩
    · exact this.1
    · exact this.2
  obtain ⟨F, hF, hFb⟩ := h.join
  have hnot := h.disj e he
  have hFl := hFb l hlns
  by_cases hpl : par l = true
  · simp only [hpl, if_true, if_neg hnot]
    have heF : e ∈ F := by
      by_contra hc
      rw [bdry_zero fun f hf => honly f (hF.subset hf) (by rintro rfl; exact hc hf), hpl] at hFl
      exact absurd hFl (by decide)
    have hpar' : ∀ v, bz (Function.update (Function.update par l false) n (!Function.update par l false n) v) =
        bz (par v) + inc e v := by
      intro v
      rw [hinc]
      by_cases hvn : v = n
      · subst hvn
        rw [Function.update_self, Function.update_of_ne (Ne.symm hln), bz_not]
        simp [hln]
      · rw [Function.update_of_ne hvn]
        by_cases hvl : v = l
        · subst hvl
          rw [Function.update_self, hpl]
          simp only [if_true, if_neg (Ne.symm hvn)]
          decide
        · rw [Function.update_of_ne hvl]
          simp [Ne.symm hvn, Ne.symm hvl]
    refine ⟨List.erase_sublist.trans h.sub, ?_, ?_, ?_, ⟨F.erase e, hF.erase e, ?_⟩, ?_⟩
    · intro q hq'
      rcases List.mem_append.1 hq' with hq' | hq'
      · exact h.recSub q hq'
      · rw [List.mem_singleton.1 hq']
        exact List.mem_map.2 ⟨e, he0, rfl⟩
    · rw [List.nodup_append]
      refine ⟨h.recNodup, by simp, ?_⟩
      intro a ha b hb
      rw [List.mem_singleton.1 hb]
      rintro rfl
      exact hnot ha
    · intro f hf
      rw [hnd.mem_erase_iff] at hf
      rw [List.mem_append, not_or]
      refine ⟨h.disj f hf.2, ?_⟩
      rw [List.mem_singleton]
      intro hc
      exact hf.1 (List.inj_on_of_nodup_map hq (h.sub.subset hf.2) he0 hc)
    · intro v hv
      rw [hpar', ← hFb v hv, bdry_perm (List.perm_cons_erase heF) v, bdry_cons, add_comm, ← add_assoc, zmod2, zero_add]
    · intro v hv
      rw [hpar', bdry_recEdges hq he0 hnot, h.total v hv]
      have := zmod2 (inc e v)
      generalize inc e v = x at *
      rw [add_assoc, ← add_assoc x, this, zero_add]
  · simp only [if_neg hpl]
    have heF : e ∉ F := by
      intro hc
      rw [bdry_perm (List.perm_cons_erase hc), bdry_cons, bdry_zero, hinc] at hFl
      · have : par l = false := by simpa using hpl
        rw [this] at hFl
        simp [Ne.symm hln, bz] at hFl
      · intro f hf
        rw [(hnd.sublist hF).mem_erase_iff] at hf
        exact honly f (hF.subset hf.2) hf.1
    refine ⟨List.erase_sublist.trans h.sub, h.recSub, h.recNodup,
      fun f hf => h.disj f (List.mem_of_mem_erase hf), ⟨F, ?_, hFb⟩, h.total⟩
    have := hF.erase e
    rwa [List.erase_of_not_mem heF] at this

theorem degree_erase {es : List (N × N × Q)} {e : N × N × Q} (he : e ∈ es) (v : N) :
    degree es v = degree (es.erase e) v + (if e.1 = v ∨ e.2.1 = v then 1 else 0) := by
  unfold degree
  rw [(List.perm_cons_erase he).countP_eq, List.countP_cons]
  simp

theorem trim_spec {ns : List N} {es0 : List (N × N × Q)} {par0 : N → Bool} (hfor : IsForest es0)
    (hq : (es0.map (·.2.2)).Nodup) (hns : ∀ e ∈ es0, e.1 ∈ ns ∧ e.2.1 ∈ ns) (rest : List N) (fuel : ℕ) :
    ∀ (es : List (N × N × Q)) (leaf : N) (par : N → Bool) (rec : List Q), es.length ≤ fuel →
    PInv ns es0 par0 es par rec → degree es leaf ≤ 1 → (∀ v, degree es v = 1 → v = leaf ∨ v ∈ rest) →
    let r := trimForest fuel es leaf par rec
    PInv ns es0 par0 r.1 r.2.1 r.2.2 ∧ (∀ v, degree r.1 v = 1 → v ∈ rest) ∧ r.1.Sublist es := by
  induction fuel with
  | zero =>
    intro es leaf par rec hlen h hdeg hleaf
    obtain rfl : es = [] := List.length_eq_zero_iff.1 (by omega)
    exact ⟨h, fun v hv => by simp [trimForest, degree] at hv, List.Sublist.refl _⟩
  | succ fuel ih =>
    intro es leaf par rec hlen h hdeg hleaf
    cases hf : es.find? fun e => decide (e.1 = leaf ∨ e.2.1 = leaf) with
    | none =>
      simp only [trimForest, hf]
      refine ⟨h, fun v hv => ?_, List.Sublist.refl _⟩
      rcases hleaf v hv with rfl | hr
      · have := degree_pos.1 (by omega : 0 < degree es v)
        obtain ⟨e, he, hev⟩ := this
        have := List.find?_eq_none.1 hf e he
        simp at this
        tauto
      · exact hr
    | some e =>
      have he := List.mem_of_find?_eq_some hf
      have hel : e.1 = leaf ∨ e.2.1 = leaf := by simpa using List.find?_some hf
      have hd1 : degree es leaf = 1 := by
        have := degree_pos.2 ⟨e, he, hel⟩
        omega
      simp only [trimForest, hf]
      set n := if e.1 = leaf then e.2.1 else e.1 with hn
      have hl : e.1 = leaf ∧ e.2.1 = n ∨ e.1 = n ∧ e.2.1 = leaf := by
        rw [hn]
        split_ifs with h1
        · exact Or.inl ⟨h1, rfl⟩
        · exact Or.inr ⟨rfl, by tauto⟩
      have hstep := h.step hfor hq hns he hl hd1
      have hpar : (if par leaf = true then
            Function.update (if par leaf = true then Function.update par leaf false else par) n
              !(if par leaf = true then Function.update par leaf false else par) n
          else if par leaf = true then Function.update par leaf false else par) =
          (if par leaf then Function.update (Function.update par leaf false) n (!Function.update par leaf false n) else par) := by
        by_cases hp : par leaf = true
        · simp only [hp, if_true]
        · simp only [if_neg hp]
      rw [hpar]
      have hnew : ∀ v, degree (es.erase e) v = 1 → v = n ∨ v ∈ rest := by
        intro v hv
        have hd := degree_erase he v
        by_cases hev : e.1 = v ∨ e.2.1 = v
        · rw [if_pos hev, hv] at hd
          have : v ≠ leaf := by rintro rfl; omega
          rcases hl with ⟨h1, h2⟩ | ⟨h1, h2⟩
          · rcases hev with h3 | h3
            · exact absurd (h3.symm.trans h1) this
            · exact Or.inl (h3.symm.trans h2)
          · rcases hev with h3 | h3
            · exact Or.inl (h3.symm.trans h1)
            · exact absurd (h3.symm.trans h2) this
        · rw [if_neg hev, hv] at hd
          rcases hleaf v (by omega) with rfl | hr
          · exact absurd hel hev
          · exact Or.inr hr
      by_cases hdn : degree (es.erase e) n = 1
      · rw [if_pos hdn]
        have hlen' : (es.erase e).length ≤ fuel := by
          rw [List.length_erase_of_mem he]; omega
        obtain ⟨r1, r2, r3⟩ := ih (es.erase e) n _ _ hlen' hstep (by omega) hnew
        exact ⟨r1, r2, r3.trans List.erase_sublist⟩
      · rw [if_neg hdn]
        refine ⟨hstep, fun v hv => ?_, List.erase_sublist⟩
        rcases hnew v hv with rfl | hr
        · exact absurd hv hdn
        · exact hr

theorem degree_sublist {es es' : List (N × N × Q)} (h : es'.Sublist es) (v : N) : degree es' v ≤ degree es v :=
  h.countP_le

theorem peel_fold {ns : List N} {es0 : List (N × N × Q)} {par0 : N → Bool} (hfor : IsForest es0)
    (hq : (es0.map (·.2.2)).Nodup) (hns : ∀ e ∈ es0, e.1 ∈ ns ∧ e.2.1 ∈ ns) (leaves : List N)
    (st : List (N × N × Q) × (N → Bool) × List Q) (h : PInv ns es0 par0 st.1 st.2.1 st.2.2)
    (hdeg : ∀ v ∈ leaves, degree st.1 v ≤ 1) (hl : ∀ v, degree st.1 v = 1 → v ∈ leaves) :
    let r := leaves.foldl (fun st leaf => trimForest st.1.length st.1 leaf st.2.1 st.2.2) st
    PInv ns es0 par0 r.1 r.2.1 r.2.2 ∧ ∀ v, degree r.1 v ≠ 1 := by
  induction leaves generalizing st with
  | nil => exact ⟨h, fun v hv => by simpa using hl v hv⟩
  | cons a l ih =>
    obtain ⟨h1, h2, h3⟩ := trim_spec hfor hq hns l st.1.length st.1 a st.2.1 st.2.2 le_rfl h (hdeg a (by simp))
      (fun v hv => by simpa using hl v hv)
    rw [List.foldl_cons]
    exact ih _ h1 (fun v hv => (degree_sublist h3 v).trans (hdeg v (by simp [hv]))) h2

/-- The result of peeling a forest, given the edges that must be recovered. -/
theorem peeling_spec {ns : List N} {es : List (N × N × Q)} {par : N → Bool} (hfor : IsForest es)
    (hq : (es.map (·.2.2)).Nodup) (hns : ∀ e ∈ es, e.1 ∈ ns ∧ e.2.1 ∈ ns)
    (hT : ∃ F : List (N × N × Q), F.Sublist es ∧ ∀ v ∈ ns, bdry F v = bz (par v)) :
    let r := peeling ns es par
    r.1 = [] ∧ (∀ v ∈ ns, r.2.1 v = false) ∧ r.2.2.Nodup ∧ (∀ q ∈ r.2.2, q ∈ es.map (·.2.2)) ∧
      ∀ v ∈ ns, bdry (recEdges es r.2.2) v = bz (par v) := by
  obtain ⟨h1, h2⟩ := peel_fold hfor hq hns (ns.filter fun v => decide (degree es v = 1)) (es, par, [])
    (par0 := par) ⟨List.Sublist.refl _, by simp, List.nodup_nil, by simp, hT, fun v _ => by
      simp [recEdges, bdry]⟩ (fun v hv => by
      rw [List.mem_filter, decide_eq_true_eq] at hv
      exact le_of_eq hv.2) (fun v hv => by
      rw [List.mem_filter, decide_eq_true_eq]
      refine ⟨?_, hv⟩
      obtain ⟨e, he, hev⟩ := degree_pos.1 (by rw [show degree es v = 1 from hv]; exact Nat.one_pos : 0 < degree es v)
      rcases hev with rfl | rfl
      · exact (hns e he).1
      · exact (hns e he).2)
  have hempty : (peeling ns es par).1 = [] := by
    by_contra hne
    obtain ⟨v, hv⟩ := exists_leaf (hfor.sublist h1.sub) hne
    exact h2 v hv
  have hzero : ∀ v ∈ ns, (peeling ns es par).2.1 v = false := by
    intro v hv
    obtain ⟨F, hF, hFb⟩ := h1.join
    change F.Sublist (peeling ns es par).1 at hF
    rw [hempty] at hF
    obtain rfl := List.sublist_nil.1 hF
    apply bz_inj
    have := hFb v hv
    exact this.symm
  refine ⟨hempty, hzero, h1.recNodup, h1.recSub, fun v hv => ?_⟩
  have ht := h1.total v hv
  change bz (par v) = bz ((peeling ns es par).2.1 v) + _ at ht
  rw [hzero v hv] at ht
  rw [ht]
  simp [bz, peeling]

open Classical in
theorem compSum_even (ns : List N) (es : List (Sym2 N)) (par : N → Bool) (v : N)
    (h : Even {u | u ∈ ns ∧ Conn es v u ∧ par u = true}.ncard) : compSum ns.toFinset es (fun u => bz (par u)) v = 0 := by
  unfold compSum
  have h1 : ∀ u, (if Conn es v u then bz (par u) else 0) = if (Conn es v u ∧ par u = true) then (1 : ZMod 2) else 0 := by
    intro u
    by_cases h1 : Conn es v u <;> by_cases h2 : par u = true <;> simp [h1, h2, bz]
  simp only [h1]
  rw [Finset.sum_boole]
  have h2 : {u | u ∈ ns ∧ Conn es v u ∧ par u = true} = ↑(ns.toFinset.filter fun u => Conn es v u ∧ par u = true) := by
    ext u; simp
  rw [h2, Set.ncard_coe_finset] at h
  exact (ZMod.natCast_eq_zero_iff_even).2 h

end Flamingpy.UnionFind
