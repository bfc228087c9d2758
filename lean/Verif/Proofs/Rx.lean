import Verif.Model.Rx
import Verif.Proofs.PyDict
import Verif.Proofs.Libs

/-!
# Graphs on indices
-/

namespace Flamingpy.SurfaceCode

open Flamingpy

section

variable {α β γ : Type} [DecidableEq α]

/-- An edge between listed nodes. -/
def Over (L : List α) (e : Sym2 α) : Prop := ∀ a ∈ e, a ∈ L

theorem over_mk {L : List α} {a b : α} : Over L s(a, b) ↔ a ∈ L ∧ b ∈ L := by
  simp [Over, Sym2.mem_iff]

/-- Nodes replaced by their positions. -/
def ixE (L : List α) (E : List (Sym2 α × β)) : List (Sym2 ℕ × β) := E.map fun e => (Sym2.map L.idxOf e.1, e.2)

theorem over_inj {L : List α} {e e' : Sym2 α} (h : Over L e) (h' : Over L e')
    (he : Sym2.map L.idxOf e = Sym2.map L.idxOf e') : e = e' := by
  induction e using Sym2.ind with
  | _ a b =>
    induction e' using Sym2.ind with
    | _ c d =>
      rw [over_mk] at h h'
      rw [Sym2.map_mk, Sym2.map_mk, Sym2.eq_iff] at he
      rw [Sym2.eq_iff]
      rcases he with ⟨h1, h2⟩ | ⟨h1, h2⟩
      · exact Or.inl ⟨(List.idxOf_inj h.1).1 h1, (List.idxOf_inj h.2).1 h2⟩
      · exact Or.inr ⟨(List.idxOf_inj h.1).1 h1, (List.idxOf_inj h.2).1 h2⟩

theorem get?_ixE {L : List α} {E : List (Sym2 α × β)} (hE : ∀ e ∈ E, Over L e.1) {e : Sym2 α} (he : Over L e) :
    PyDict.get? (ixE L E) (Sym2.map L.idxOf e) = PyDict.get? E e := by
  induction E with
  | nil => rfl
  | cons a E ih =>
    rw [ixE, List.map_cons, PyDict.get?_cons, PyDict.get?_cons]
    have := ih fun e he => hE e (by simp [he])
    rw [ixE] at this
    rw [this]
    by_cases h : a.1 = e
    · rw [if_pos h, if_pos (by rw [h])]
    · rw [if_neg h, if_neg fun h' => h (over_inj (hE a (by simp)) he h')]

theorem keys_ixE (L : List α) (E : List (Sym2 α × β)) : PyDict.keys (ixE L E) = (PyDict.keys E).map (Sym2.map L.idxOf) := by
  simp [PyDict.keys, ixE, Function.comp_def]

theorem keys_ixE_nodup {L : List α} {E : List (Sym2 α × β)} (hE : ∀ e ∈ E, Over L e.1) (h : (PyDict.keys E).Nodup) :
    (PyDict.keys (ixE L E)).Nodup := by
  rw [keys_ixE]
  refine h.map_on fun x hx y hy => ?_
  obtain ⟨e, he, rfl⟩ := List.mem_map.1 hx
  obtain ⟨e', he', rfl⟩ := List.mem_map.1 hy
  exact over_inj (hE e he) (hE e' he')

theorem mem_keys_ixE {L : List α} {E : List (Sym2 α × β)} (hE : ∀ e ∈ E, Over L e.1) {e : Sym2 α} (he : Over L e) :
    Sym2.map L.idxOf e ∈ PyDict.keys (ixE L E) ↔ e ∈ PyDict.keys E := by
  rw [← PyDict.get?_isSome_iff, ← PyDict.get?_isSome_iff, get?_ixE hE he]

/-! ### Walks -/

theorem getElem?_idxOf' {L : List α} {a : α} (h : a ∈ L) : L[L.idxOf a]? = some a := by
  rw [List.getElem?_eq_getElem (List.idxOf_lt_length_of_mem h), List.getElem_idxOf]

theorem walkSum_ixE (f : ℚ → ℚ) {L : List α} {E : List (Sym2 α × ℚ)} (hE : ∀ e ∈ E, Over L e.1) (p : List α) (hp : ∀ a ∈ p, a ∈ L) :
    walkSum f (ixE L E) (p.map L.idxOf) = walkSum f E p := by
  induction p with
  | nil => rfl
  | cons a p ih =>
    cases p with
    | nil => rfl
    | cons b p =>
      have := ih fun a ha => hp a (by simp [ha])
      rw [List.map_cons] at this
      rw [List.map_cons, List.map_cons, walkSum, walkSum, this]
      congr 3
      exact get?_ixE hE (over_mk.2 ⟨hp a (by simp), hp b (by simp)⟩)

theorem isWalk_over {L : List α} {E : List (Sym2 α × ℚ)} (hE : ∀ e ∈ E, Over L e.1) {s t : α} (hs : s ∈ L) {p : List α}
    (hp : IsWalk E s t p) : ∀ a ∈ p, a ∈ L := by
  obtain ⟨h1, _, h3⟩ := hp
  clear * - h1 h3 hE hs
  induction p generalizing s with
  | nil => simp
  | cons a p ih =>
    rw [List.head?_cons, Option.some.injEq] at h1
    subst h1
    intro b hb
    rcases List.mem_cons.1 hb with rfl | hb
    · exact hs
    cases p with
    | nil => cases hb
    | cons c p =>
      rw [List.isChain_cons_cons] at h3
      obtain ⟨e, he, hk⟩ := List.mem_map.1 h3.1
      have := hE e he
      rw [hk, over_mk] at this
      exact ih this.2 rfl h3.2 b hb

theorem isWalk_ixE {L : List α} {E : List (Sym2 α × ℚ)} (hE : ∀ e ∈ E, Over L e.1) {s t : α} (hs : s ∈ L) (ht : t ∈ L) {p : List α}
    (hp : IsWalk E s t p) : IsWalk (ixE L E) (L.idxOf s) (L.idxOf t) (p.map L.idxOf) := by
  have hov := isWalk_over hE hs hp
  obtain ⟨h1, h2, h3⟩ := hp
  refine ⟨by rw [List.head?_map, h1]; rfl, by rw [List.getLast?_map, h2]; rfl, ?_⟩
  rw [List.isChain_map]
  refine List.IsChain.imp_of_mem_imp ?_ h3 
  intro a b ha hb hab
  exact (mem_keys_ixE hE (over_mk.2 ⟨hov a ha, hov b hb⟩)).2 hab

theorem isWalk_of_ixE' {L : List α} {E : List (Sym2 α × ℚ)} (hE : ∀ e ∈ E, Over L e.1) {s : α} (hs : s ∈ L) {j : ℕ}
    {q : List ℕ} (hq : IsWalk (ixE L E) (L.idxOf s) j q) :
    ∃ t p, t ∈ L ∧ j = L.idxOf t ∧ q = p.map L.idxOf ∧ (∀ a ∈ p, a ∈ L) ∧ IsWalk E s t p := by
  obtain ⟨h1, h2, h3⟩ := hq
  induction q generalizing s with
  | nil => cases h1
  | cons i q ih =>
    rw [List.head?_cons, Option.some.injEq] at h1
    subst h1
    cases q with
    | nil =>
      rw [List.getLast?_singleton, Option.some.injEq] at h2
      exact ⟨s, [s], hs, h2.symm, rfl, by simpa using hs, rfl, rfl, List.IsChain.singleton _⟩
    | cons k q =>
      rw [List.isChain_cons_cons] at h3
      obtain ⟨h3, h4⟩ := h3
      rw [keys_ixE] at h3
      obtain ⟨e, he, hk⟩ := List.mem_map.1 h3
      obtain ⟨e', he', rfl⟩ := List.mem_map.1 he
      have hov := hE e' he'
      have : ∃ c ∈ L, k = L.idxOf c ∧ s(s, c) = e'.1 := by
        revert hk hov
        generalize e'.1 = x
        induction x using Sym2.ind with
        | _ a b =>
          intro hk hov
          rw [over_mk] at hov
          rw [Sym2.map_mk, Sym2.eq_iff] at hk
          rcases hk with ⟨k1, k2⟩ | ⟨k1, k2⟩
          · exact ⟨b, hov.2, k2.symm, by rw [(List.idxOf_inj hov.1).1 k1]⟩
          · exact ⟨a, hov.1, k1.symm, by rw [(List.idxOf_inj hov.2).1 k2, Sym2.eq_swap]⟩
      obtain ⟨c, hc, rfl, hce⟩ := this
      rw [List.getLast?_cons_cons] at h2
      obtain ⟨t, p, t1, t2, p1, p2, p3, p4, p5⟩ := ih hc rfl h2 h4
      refine ⟨t, s :: p, t1, t2, by rw [List.map_cons, p1], ?_, rfl, ?_, ?_⟩
      · intro a ha
        rcases List.mem_cons.1 ha with rfl | ha
        exacts [hs, p2 a ha]
      · cases p with
        | nil => cases p3
        | cons b p => rw [List.getLast?_cons_cons]; exact p4
      · cases p with
        | nil => cases p3
        | cons b p =>
          rw [List.head?_cons, Option.some.injEq] at p3
          subst p3
          rw [List.isChain_cons_cons]
          exact ⟨hce ▸ he, p5⟩

theorem isWalk_of_ixE {L : List α} {E : List (Sym2 α × ℚ)} (hE : ∀ e ∈ E, Over L e.1) {s t : α} (hs : s ∈ L) (ht : t ∈ L)
    {q : List ℕ} (hq : IsWalk (ixE L E) (L.idxOf s) (L.idxOf t) q) : ∃ p, q = p.map L.idxOf ∧ (∀ a ∈ p, a ∈ L) ∧ IsWalk E s t p := by
  obtain ⟨t', p, h1, h2, h3⟩ := isWalk_of_ixE' hE hs hq
  obtain rfl := (List.idxOf_inj ht).1 h2
  exact ⟨p, h3⟩

theorem mapM_some {δ ε : Type} {f : δ → Option ε} {g : ε → δ} (l : List ε) (h : ∀ a ∈ l, f (g a) = some a) :
    (l.map g).mapM f = some l := by
  induction l with
  | nil => rfl
  | cons a l ih =>
    rw [List.map_cons, List.mapM_cons, h a (by simp), ih fun b hb => h b (by simp [hb])]
    rfl

theorem mapM_idx {L p : List α} (hp : ∀ a ∈ p, a ∈ L) : (p.map L.idxOf).mapM (fun i => L[i]?) = some p :=
  mapM_some p fun a ha => getElem?_idxOf' (hp a ha)

open Classical in
/-- Shortest paths by way of indices. -/
theorem pathLib_of (rl : RxPathLib) (lib₀ : PathLib) (L : List SNode) :
    ∃ lib : PathLib, ∀ E, (∀ e ∈ E, Over L e.1) → (PyDict.keys E).Nodup → ∀ s ∈ L, ∀ t ∈ L,
      lib.find E s t = (PyDict.get? (rl.run (ixE L E) (L.idxOf s)) (L.idxOf t)).bind fun q => q.mapM fun i => L[i]? := by
  refine ⟨⟨fun E s t => if (∀ e ∈ E, Over L e.1) ∧ (PyDict.keys E).Nodup ∧ s ∈ L ∧ t ∈ L then
    (PyDict.get? (rl.run (ixE L E) (L.idxOf s)) (L.idxOf t)).bind fun q => q.mapM fun i => L[i]? else lib₀.find E s t, ?_, ?_⟩,
    fun E h1 h2 s hs t ht => by dsimp only; rw [if_pos ⟨h1, h2, hs, ht⟩]⟩
  · intro E s t p hE hst hf
    split_ifs at hf with hc
    · obtain ⟨h1, h2, hs, ht⟩ := hc
      rw [Option.bind_eq_some_iff] at hf
      obtain ⟨q, hq, hqp⟩ := hf
      have hnn : ∀ e ∈ ixE L E, 0 ≤ e.2 := by
        intro e he
        obtain ⟨e', he', rfl⟩ := List.mem_map.1 he
        exact hE e' he'
      obtain ⟨s1, s2⟩ := rl.sound _ _ _ _ hnn (keys_ixE_nodup h1 h2) (PyDict.get?_mem hq)
      obtain ⟨p', rfl, p2, p3⟩ := isWalk_of_ixE h1 hs ht s1
      rw [mapM_idx p2] at hqp
      obtain rfl := Option.some.inj hqp
      refine ⟨p3, fun p'' hp'' => ?_⟩
      have := s2 _ (isWalk_ixE h1 hs ht hp'')
      unfold walkWeight at this ⊢
      rwa [walkSum_ixE id h1 _ p2, walkSum_ixE id h1 _ (isWalk_over h1 hs hp'')] at this
    · exact lib₀.sound E s t p hE hst hf
  · intro E s t hE hst hf p hp
    split_ifs at hf with hc
    · obtain ⟨h1, h2, hs, ht⟩ := hc
      have hnn : ∀ e ∈ ixE L E, 0 ≤ e.2 := by
        intro e he
        obtain ⟨e', he', rfl⟩ := List.mem_map.1 he
        exact hE e' he'
      rcases rl.complete _ _ _ _ hnn (keys_ixE_nodup h1 h2) (isWalk_ixE h1 hs ht hp) with h | h
      · exact hst ((List.idxOf_inj ht).1 h).symm
      · obtain ⟨q, hq⟩ := Option.isSome_iff_exists.1 ((PyDict.get?_isSome_iff _ _).2 h)
        rw [hq, Option.bind_some] at hf
        obtain ⟨s1, s2⟩ := rl.sound _ _ _ _ hnn (keys_ixE_nodup h1 h2) (PyDict.get?_mem hq)
        obtain ⟨p', rfl, p2, p3⟩ := isWalk_of_ixE h1 hs ht s1
        rw [mapM_idx p2] at hf
        cases hf
    · exact lib₀.complete E s t hE hst hf p hp

/-! ### Matchings -/

theorem isMatching_over {L : List α} {E : List (Sym2 α × ℚ)} (hE : ∀ e ∈ E, Over L e.1) {M : List (α × α)} (hM : IsMatching E M) :
    ∀ m ∈ M, m.1 ∈ L ∧ m.2 ∈ L := by
  intro m hm
  obtain ⟨e, he, hk⟩ := List.mem_map.1 (hM.1 m hm)
  have := hE e he
  rwa [hk, over_mk] at this

theorem flatMap_idx (L : List α) (M : List (α × α)) :
    ((M.map (Prod.map L.idxOf L.idxOf)).flatMap fun m => [m.1, m.2]) = (M.flatMap fun m => [m.1, m.2]).map L.idxOf := by
  induction M with
  | nil => rfl
  | cons a M ih => simp [ih]

theorem isMatching_ixE {L : List α} {E : List (Sym2 α × ℚ)} (hE : ∀ e ∈ E, Over L e.1) {M : List (α × α)} (hM : IsMatching E M) :
    IsMatching (ixE L E) (M.map (Prod.map L.idxOf L.idxOf)) := by
  have hov := isMatching_over hE hM
  refine ⟨fun m hm => ?_, ?_⟩
  · obtain ⟨m', hm', rfl⟩ := List.mem_map.1 hm
    exact (mem_keys_ixE hE (over_mk.2 (hov m' hm'))).2 (hM.1 m' hm')
  · rw [flatMap_idx]
    refine hM.2.map_on fun x hx y hy hxy => ?_
    obtain ⟨m, hm, hx⟩ := List.mem_flatMap.1 hx
    have : x ∈ L := by
      have := hov m hm
      simp only [List.mem_cons, List.not_mem_nil, or_false] at hx
      rcases hx with rfl | rfl
      exacts [this.1, this.2]
    exact (List.idxOf_inj this).1 hxy

theorem isMatching_of_ixE {L : List α} {E : List (Sym2 α × ℚ)} (hE : ∀ e ∈ E, Over L e.1) {N : List (ℕ × ℕ)}
    (hN : IsMatching (ixE L E) N) : ∃ M, N = M.map (Prod.map L.idxOf L.idxOf) ∧ (∀ m ∈ M, m.1 ∈ L ∧ m.2 ∈ L) ∧ IsMatching E M := by
  have key : ∀ n ∈ N, ∃ m : α × α, n = Prod.map L.idxOf L.idxOf m ∧ m.1 ∈ L ∧ m.2 ∈ L ∧ s(m.1, m.2) ∈ PyDict.keys E := by
    intro n hn
    have := hN.1 n hn
    rw [keys_ixE] at this
    obtain ⟨e, he, hk⟩ := List.mem_map.1 this
    have hov : Over L e := by
      obtain ⟨e', he', rfl⟩ := List.mem_map.1 he
      exact hE e' he'
    clear this
    induction e using Sym2.ind with
    | _ a b =>
      rw [over_mk] at hov
      rw [Sym2.map_mk, Sym2.eq_iff] at hk
      rcases hk with ⟨k1, k2⟩ | ⟨k1, k2⟩
      · exact ⟨(a, b), Prod.ext k1.symm k2.symm, hov.1, hov.2, he⟩
      · exact ⟨(b, a), Prod.ext k2.symm k1.symm, hov.2, hov.1, by rwa [Sym2.eq_swap]⟩
  have : ∃ M : List (α × α), N = M.map (Prod.map L.idxOf L.idxOf) ∧ ∀ m ∈ M, m.1 ∈ L ∧ m.2 ∈ L ∧ s(m.1, m.2) ∈ PyDict.keys E := by
    clear hN
    induction N with
    | nil => exact ⟨[], rfl, by simp⟩
    | cons n N ih =>
      obtain ⟨M, h1, h2⟩ := ih fun n hn => key n (by simp [hn])
      obtain ⟨m, m1, m2⟩ := key n (by simp)
      refine ⟨m :: M, by rw [List.map_cons, ← h1, ← m1], ?_⟩
      intro x hx
      rcases List.mem_cons.1 hx with rfl | hx
      exacts [m2, h2 x hx]
  obtain ⟨M, rfl, h2⟩ := this
  refine ⟨M, rfl, fun m hm => ⟨(h2 m hm).1, (h2 m hm).2.1⟩, fun m hm => (h2 m hm).2.2, ?_⟩
  have := hN.2
  rw [flatMap_idx] at this
  exact this.of_map _

theorem matchWeight_ixE {L : List α} {E : List (Sym2 α × ℚ)} (hE : ∀ e ∈ E, Over L e.1) {M : List (α × α)}
    (hM : ∀ m ∈ M, m.1 ∈ L ∧ m.2 ∈ L) : matchWeight (ixE L E) (M.map (Prod.map L.idxOf L.idxOf)) = matchWeight E M := by
  unfold matchWeight
  rw [List.map_map]
  congr 1
  refine List.map_congr_left fun m hm => ?_
  exact congrArg (Option.getD · 0) (get?_ixE hE (over_mk.2 (hM m hm)))

/-- Weights with the opposite sign. -/
def negE (E : List (Sym2 α × ℚ)) : List (Sym2 α × ℚ) := E.map fun e => (e.1, -e.2)

theorem keys_negE (E : List (Sym2 α × ℚ)) : PyDict.keys (negE E) = PyDict.keys E := by
  simp [PyDict.keys, negE, Function.comp_def]

theorem isMatching_negE {E : List (Sym2 α × ℚ)} {M : List (α × α)} : IsMatching (negE E) M ↔ IsMatching E M := by
  unfold IsMatching
  rw [keys_negE]

theorem get?_negE (E : List (Sym2 α × ℚ)) (e : Sym2 α) : PyDict.get? (negE E) e = (PyDict.get? E e).map fun x => -x := by
  induction E with
  | nil => rfl
  | cons a E ih =>
    rw [negE, List.map_cons, PyDict.get?_cons, PyDict.get?_cons]
    rw [negE] at ih
    rw [ih]
    split_ifs <;> rfl

theorem matchWeight_negE (E : List (Sym2 α × ℚ)) (M : List (α × α)) : matchWeight (negE E) M = -matchWeight E M := by
  unfold matchWeight
  induction M with
  | nil => simp
  | cons m M ih =>
    rw [List.map_cons, List.map_cons, List.sum_cons, List.sum_cons, ih, get?_negE, neg_add]
    congr 1
    cases PyDict.get? E s(m.1, m.2) <;> simp

open Classical in
/-- Matchings by way of indices. -/
theorem matchLib_of (rm : RxMatchLib) (ml₀ : MatchLib) (L : List MNode) :
    ∃ ml : MatchLib, ∀ E, (∀ e ∈ E, Over L e.1) → (PyDict.keys E).Nodup →
      ((rm.run (ixE L (negE E))).mapM fun p => do
        let u ← L[p.1]?
        let v ← L[p.2]?
        pure (u, v)) = some (ml.find E) := by
  have key : ∀ E : List (Sym2 MNode × ℚ), (∀ e ∈ E, Over L e.1) → (PyDict.keys E).Nodup →
      ∃ M, rm.run (ixE L (negE E)) = M.map (Prod.map L.idxOf L.idxOf) ∧ (∀ m ∈ M, m.1 ∈ L ∧ m.2 ∈ L) ∧ IsMatching E M ∧
        (∀ M', IsMatching E M' → M'.length ≤ M.length) ∧
        ∀ M', IsMatching E M' → M'.length = M.length → matchWeight E M ≤ matchWeight E M' := by
    intro E h1 h2
    have h1' : ∀ e ∈ negE E, Over L e.1 := by
      intro e he
      obtain ⟨e', he', rfl⟩ := List.mem_map.1 he
      exact h1 e' he'
    have h2' := keys_ixE_nodup h1' (by rwa [keys_negE])
    obtain ⟨M, m1, m2, m3⟩ := isMatching_of_ixE h1' (rm.isMatching _ h2')
    refine ⟨M, m1, m2, isMatching_negE.1 m3, fun M' hM' => ?_, fun M' hM' hl => ?_⟩
    · have := rm.maximum _ _ h2' (isMatching_ixE h1' (isMatching_negE.2 hM'))
      rw [m1, List.length_map, List.length_map] at this
      exact this
    · have := rm.maximal _ _ h2' (isMatching_ixE h1' (isMatching_negE.2 hM')) (by rw [m1, List.length_map, List.length_map, hl])
      rw [m1, matchWeight_ixE h1' m2, matchWeight_ixE h1' (isMatching_over h1 hM'), matchWeight_negE, matchWeight_negE] at this
      linarith
  refine ⟨⟨fun E => if h : (∀ e ∈ E, Over L e.1) ∧ (PyDict.keys E).Nodup then Classical.choose (key E h.1 h.2) else ml₀.find E,
    fun E => ?_, fun E M hM => ?_, fun E M hM hl => ?_⟩, fun E h1 h2 => ?_⟩
  · split_ifs with h
    · exact (Classical.choose_spec (key E h.1 h.2)).2.2.1
    · exact ml₀.isMatching E
  · split_ifs with h
    · exact (Classical.choose_spec (key E h.1 h.2)).2.2.2.1 M hM
    · exact ml₀.maximum E M hM
  · split_ifs at hl ⊢ with h
    · exact (Classical.choose_spec (key E h.1 h.2)).2.2.2.2 M hM hl
    · exact ml₀.minimal E M hM hl
  · dsimp only
    rw [dif_pos ⟨h1, h2⟩]
    obtain ⟨c1, c2, -⟩ := Classical.choose_spec (key E h1 h2)
    generalize Classical.choose (key E h1 h2) = M at c1 c2 ⊢
    rw [c1]
    refine mapM_some M fun m hm => ?_
    obtain ⟨d1, d2⟩ := c2 m hm
    simp only [Prod.map_fst, Prod.map_snd]
    rw [getElem?_idxOf' d1, getElem?_idxOf' d2]
    rfl

/-! ### The index dictionaries -/

/-- The graph with nodes `L`, in this order, and edges `D`. -/
def rxOf (multi : Bool) (L : List α) (D : List ((α × α) × β)) : RxGraph α β :=
  ⟨⟨multi, L.map some, D.map fun e => ((L.idxOf e.1.1, L.idxOf e.1.2), e.2)⟩, L.zipIdx, L.zipIdx.map Prod.swap⟩

/-- Edges without direction. -/
def symOf (D : List ((α × α) × β)) : List (Sym2 α × β) := D.map fun e => (s(e.1.1, e.1.2), e.2)

theorem get?_zipIdx (L : List α) (k : ℕ) (n : α) :
    PyDict.get? (L.zipIdx k) n = if n ∈ L then some (k + L.idxOf n) else none := by
  induction L generalizing k with
  | nil => simp [PyDict.get?_nil]
  | cons a L ih =>
    rw [List.zipIdx_cons, PyDict.get?_cons, ih]
    by_cases h : a = n
    · subst h; simp
    · rw [if_neg h, List.idxOf_cons_ne _ h]
      by_cases hm : n ∈ L
      · rw [if_pos hm, if_pos (by simp [hm])]
        congr 1
        omega
      · rw [if_neg hm, if_neg (by simp [hm, Ne.symm h])]

theorem rxOf_index {multi : Bool} {L : List α} {D : List ((α × α) × β)} {n : α} (hn : n ∈ L) :
    PyDict.get? (rxOf multi L D).nodeToIndex n = some (L.idxOf n) := by
  change PyDict.get? (L.zipIdx 0) n = _
  rw [get?_zipIdx, if_pos hn, zero_add]

theorem rxOf_index_none {multi : Bool} {L : List α} {D : List ((α × α) × β)} {n : α} (hn : n ∉ L) :
    PyDict.get? (rxOf multi L D).nodeToIndex n = none := by
  change PyDict.get? (L.zipIdx 0) n = _
  rw [get?_zipIdx, if_neg hn]

theorem get?_swap (L : List α) (k i : ℕ) : PyDict.get? ((L.zipIdx k).map Prod.swap) (k + i) = L[i]? := by
  induction L generalizing k i with
  | nil => rfl
  | cons a L ih =>
    rw [List.zipIdx_cons, List.map_cons, PyDict.get?_cons]
    cases i with
    | zero => simp
    | succ i =>
      rw [if_neg (by simp), show k + (i + 1) = k + 1 + i by omega, ih]
      rfl

theorem rxOf_node {multi : Bool} {L : List α} {D : List ((α × α) × β)} (i : ℕ) :
    PyDict.get? (rxOf multi L D).indexToNode i = L[i]? := by
  have := get?_swap L 0 i
  rw [zero_add] at this
  exact this

theorem rxOf_data {multi : Bool} {L : List α} {D : List ((α × α) × β)} (i : ℕ) :
    (rxOf multi L D).graph.getNodeData i = L[i]? := by
  unfold PyGraph.getNodeData rxOf
  rw [List.getElem?_map]
  cases L[i]? <;> rfl

theorem rxOf_addNode {multi : Bool} {L : List α} {D : List ((α × α) × β)} {n : α} (hn : n ∉ L)
    (hD : ∀ e ∈ D, e.1.1 ∈ L ∧ e.1.2 ∈ L) : (rxOf multi L D).addNode n = rxOf multi (L ++ [n]) D := by
  unfold RxGraph.addNode PyGraph.addNode rxOf
  simp only [List.length_map, List.map_append, List.map_cons, List.map_nil]
  congr 1
  · congr 1
    refine List.map_congr_left fun e he => ?_
    rw [List.idxOf_append_of_mem (hD e he).1, List.idxOf_append_of_mem (hD e he).2]
  · rw [PyDict.set_of_not_mem _ (by rw [← PyDict.get?_eq_none]; exact rxOf_index_none (multi := multi) (D := D) hn)]
    simp [List.zipIdx_append]
  · rw [PyDict.set_of_not_mem _ (by
      rw [← PyDict.get?_eq_none]
      have := rxOf_node (multi := multi) (L := L) (D := D) L.length
      rw [List.getElem?_eq_none le_rfl] at this
      exact this)]
    simp [List.zipIdx_append]

theorem symOf_over {L : List α} {D : List ((α × α) × β)} (hD : ∀ e ∈ D, e.1.1 ∈ L ∧ e.1.2 ∈ L) : ∀ e ∈ symOf D, Over L e.1 := by
  intro e he
  obtain ⟨e', he', rfl⟩ := List.mem_map.1 he
  exact over_mk.2 (hD e' he')

theorem find_sym (D : List ((ℕ × ℕ) × β)) (i j : ℕ) :
    (D.find? fun e => decide (s(e.1.1, e.1.2) = s(i, j))).map (·.2) = PyDict.get? (symOf D) s(i, j) := by
  induction D with
  | nil => rfl
  | cons a D ih =>
    rw [symOf, List.map_cons, PyDict.get?_cons, List.find?_cons]
    by_cases h : s(a.1.1, a.1.2) = s(i, j)
    · rw [if_pos h]; simp [h]
    · rw [if_neg h]
      simp only [h, decide_false]
      rw [ih, symOf]

theorem rxOf_sym {multi : Bool} {L : List α} {D : List ((α × α) × β)} :
    symOf (rxOf multi L D).graph.edges = ixE L (symOf D) := by
  simp [symOf, ixE, rxOf, Function.comp_def]

theorem rxOf_edgeData {multi : Bool} {L : List α} {D : List ((α × α) × β)} (hD : ∀ e ∈ D, e.1.1 ∈ L ∧ e.1.2 ∈ L) {u v : α} (hu : u ∈ L)
    (hv : v ∈ L) : (rxOf multi L D).graph.getEdgeData (L.idxOf u) (L.idxOf v) = PyDict.get? (symOf D) s(u, v) := by
  unfold PyGraph.getEdgeData
  rw [find_sym, rxOf_sym]
  exact get?_ixE (symOf_over hD) (over_mk.2 ⟨hu, hv⟩)

theorem idx_eq {L : List α} {a b c d : α} (ha : a ∈ L) (hb : b ∈ L) (hc : c ∈ L) (hd : d ∈ L) :
    s(L.idxOf a, L.idxOf b) = s(L.idxOf c, L.idxOf d) ↔ s(a, b) = s(c, d) := by
  constructor
  · intro h
    exact over_inj (over_mk.2 ⟨ha, hb⟩) (over_mk.2 ⟨hc, hd⟩) h
  · intro h
    exact congrArg (Sym2.map L.idxOf) h

theorem rxOf_setEdge {multi : Bool} {L : List α} {D : List ((α × α) × β)} (hD : ∀ e ∈ D, e.1.1 ∈ L ∧ e.1.2 ∈ L) {u v : α} (hu : u ∈ L)
    (hv : v ∈ L) (b : β) : { rxOf multi L D with graph := (rxOf multi L D).graph.setEdgeData (L.idxOf u) (L.idxOf v) b } =
      rxOf multi L (D.map fun e => if s(e.1.1, e.1.2) = s(u, v) then (e.1, b) else e) := by
  simp only [rxOf, PyGraph.setEdgeData, RxGraph.mk.injEq, PyGraph.mk.injEq, true_and, and_true]
  rw [List.map_map, List.map_map]
  refine List.map_congr_left fun e he => ?_
  simp only [Function.comp]
  have := idx_eq (hD e he).1 (hD e he).2 hu hv
  by_cases h : s(e.1.1, e.1.2) = s(u, v)
  · rw [if_pos h, if_pos (this.2 h)]
  · rw [if_neg h, if_neg fun h' => h (this.1 h')]

theorem rxOf_addEdge {multi : Bool} {L : List α} {D : List ((α × α) × β)} (hD : ∀ e ∈ D, e.1.1 ∈ L ∧ e.1.2 ∈ L) {u v : α} (hu : u ∈ L)
    (hv : v ∈ L) (b : β) : ((rxOf multi L D).graph.addEdge (L.idxOf u) (L.idxOf v) b).map (fun g => { rxOf multi L D with graph := g }) =
      some (rxOf multi L (if !multi && (PyDict.get? (symOf D) s(u, v)).isSome then
        D.map fun e => if s(e.1.1, e.1.2) = s(u, v) then (e.1, b) else e else D ++ [((u, v), b)])) := by
  unfold PyGraph.addEdge
  rw [rxOf_data, rxOf_data, getElem?_idxOf' hu, getElem?_idxOf' hv, if_pos (by simp), rxOf_edgeData hD hu hv, Option.map_some]
  change some (RxGraph.mk (if (!multi && _) = true then _ else _) _ _) = _
  split_ifs with h
  · exact congrArg some (rxOf_setEdge hD hu hv b)
  · congr 1
    unfold rxOf
    simp

end

end Flamingpy.SurfaceCode
