import Verif.Model.Recursion
import Verif.Proofs.Peeling

/-!
# C93: the peeling decoder and Python's recursion limit
-/

namespace Flamingpy.UnionFind

open Flamingpy.SurfaceCode

variable {N Q : Type} [DecidableEq N] [DecidableEq Q]

/-! ### Specification -/

/-- `l` is a trail from `v`: each edge starts where the one before it ended, and no edge is used twice. -/
def IsTrail : List (N × N × Q) → N → List (N × N × Q) → Prop
  | _, _, [] => True
  | es, v, e :: l => e ∈ es ∧ ((e.1 = v ∧ IsTrail (es.erase e) e.2.1 l) ∨ (e.2.1 = v ∧ IsTrail (es.erase e) e.1 l))

/-- The path 0 - 1 - ... - k, with its edges numbered from `s` on. -/
def chain (s k : ℕ) : List (ℕ × ℕ × ℕ) := (List.range' s k).map fun i => (i, i + 1, i)

/-! ### Proofs -/

theorem IsTrail.length_le : ∀ (l es : List (N × N × Q)) (v : N), IsTrail es v l → l.length ≤ es.length
  | [], _, _, _ => Nat.zero_le _
  | e :: l, es, v, h => by
    obtain ⟨he, h⟩ := h
    have hl := List.length_erase_of_mem he
    have hp := List.length_pos_of_mem he
    rcases h with ⟨_, h⟩ | ⟨_, h⟩ <;>
    · have := IsTrail.length_le l _ _ h
      simp only [List.length_cons]
      omega

theorem IsTrail.mono : ∀ (l es es' : List (N × N × Q)) (v : N), es'.Sublist es → IsTrail es' v l → IsTrail es v l
  | [], _, _, _, _, _ => trivial
  | e :: l, es, es', v, hs, h => by
    obtain ⟨he, h⟩ := h
    refine ⟨hs.subset he, ?_⟩
    rcases h with ⟨hv, h⟩ | ⟨hv, h⟩
    · exact Or.inl ⟨hv, IsTrail.mono l _ _ _ (hs.erase e) h⟩
    · exact Or.inr ⟨hv, IsTrail.mono l _ _ _ (hs.erase e) h⟩

theorem trimRec_ok : ∀ (limit fuel : ℕ) (es : List (N × N × Q)) (leaf : N) (par : N → Bool) (rec : List Q), es.length ≤ fuel → 1 ≤ limit →
    (∀ l, IsTrail es leaf l → l.length ≤ limit) → trimForestRec limit es leaf par rec = .ok (trimForest fuel es leaf par rec)
  | 0, _, _, _, _, _, _, h1, _ => absurd h1 (by omega)
  | limit + 1, 0, es, leaf, par, rec, hf, _, _ => by
    obtain rfl : es = [] := List.length_eq_zero_iff.1 (by omega)
    rfl
  | limit + 1, fuel + 1, es, leaf, par, rec, hf, _, ht => by
    unfold trimForestRec trimForest
    cases hfind : es.find? fun e => decide (e.1 = leaf ∨ e.2.1 = leaf) with
    | none => rfl
    | some e =>
      simp only
      have he := List.mem_of_find?_eq_some hfind
      have hel : e.1 = leaf ∨ e.2.1 = leaf := by simpa using List.find?_some hfind
      set n := if e.1 = leaf then e.2.1 else e.1 with hn
      have hl : e.1 = leaf ∧ e.2.1 = n ∨ e.2.1 = leaf ∧ e.1 = n := by
        rw [hn]
        split_ifs with h1
        · exact Or.inl ⟨h1, rfl⟩
        · exact Or.inr ⟨by tauto, rfl⟩
      have ht' : ∀ l, IsTrail (es.erase e) n l → l.length ≤ limit := by
        intro l hl'
        have := ht (e :: l) ⟨he, by
          rcases hl with ⟨h1, h2⟩ | ⟨h1, h2⟩
          · exact Or.inl ⟨h1, h2 ▸ hl'⟩
          · exact Or.inr ⟨h1, h2 ▸ hl'⟩⟩
        simpa using this
      by_cases hd : degree (es.erase e) n = 1
      · rw [if_pos hd, if_pos hd]
        obtain ⟨e', he', hev⟩ := degree_pos.1 (by omega : 0 < degree (es.erase e) n)
        have h1 : 1 ≤ limit := ht' [e'] ⟨he', by
          rcases hev with h | h
          · exact Or.inl ⟨h, trivial⟩
          · exact Or.inr ⟨h, trivial⟩⟩
        exact trimRec_ok limit fuel _ n _ _ (by rw [List.length_erase_of_mem he]; omega) h1 ht'
      · rw [if_neg hd, if_neg hd]

theorem trim_sublist : ∀ (fuel : ℕ) (es : List (N × N × Q)) (leaf : N) (par : N → Bool) (rec : List Q),
    (trimForest fuel es leaf par rec).1.Sublist es
  | 0, _, _, _, _ => List.Sublist.refl _
  | fuel + 1, es, leaf, par, rec => by
    unfold trimForest
    split
    · exact List.Sublist.refl _
    · rename_i e _
      have h : ∀ n par rec, (if degree (es.erase e) n = 1 then trimForest fuel (es.erase e) n par rec else (es.erase e, par, rec)).1.Sublist es := by
        intro n par rec
        split_ifs
        · exact (trim_sublist fuel _ _ _ _).trans List.erase_sublist
        · exact List.erase_sublist
      exact h _ _ _

/-- C93.  If no trail of the forest is longer than the number of nested calls that are possible, the recursion limit does not matter. -/
theorem C93_enough (limit : ℕ) (h1 : 1 ≤ limit) (ns : List N) (es : List (N × N × Q)) (par : N → Bool)
    (ht : ∀ v l, IsTrail es v l → l.length ≤ limit) : peelingRec limit ns es par = .ok (peeling ns es par) := by
  unfold peelingRec peeling
  generalize (ns.filter fun v => decide (degree es v = 1)) = leaves
  have key : ∀ (leaves : List N) (st : List (N × N × Q) × (N → Bool) × List Q), st.1.Sublist es →
      leaves.foldlM (fun st leaf => trimForestRec limit st.1 leaf st.2.1 st.2.2) st =
        (.ok (leaves.foldl (fun st leaf => trimForest st.1.length st.1 leaf st.2.1 st.2.2) st) : Except RecErr _) := by
    intro leaves
    induction leaves with
    | nil => exact fun _ _ => rfl
    | cons a l ih =>
      intro st hs
      rw [List.foldlM_cons, trimRec_ok limit st.1.length st.1 a st.2.1 st.2.2 le_rfl h1 (fun l hl => ht a l (hl.mono _ _ _ _ hs))]
      exact ih _ ((trim_sublist _ _ _ _ _).trans hs)
  exact key leaves _ (List.Sublist.refl _)

theorem chain_cons (s k : ℕ) : chain s (k + 1) = (s, s + 1, s) :: chain (s + 1) k := by
  unfold chain
  rw [List.range'_succ, List.map_cons]

theorem chain_deg (s k : ℕ) : degree (chain (s + 1) (k + 1)) (s + 1) = 1 := by
  rw [chain_cons]
  unfold degree
  rw [List.countP_cons]
  have : (chain (s + 1 + 1) k).countP (fun e => decide (e.1 = s + 1 ∨ e.2.1 = s + 1)) = 0 := by
    rw [List.countP_eq_zero]
    intro e he
    unfold chain at he
    obtain ⟨i, hi, rfl⟩ := List.mem_map.1 he
    have := List.mem_range'_1.1 hi
    simp only [decide_eq_true_eq]
    omega
  rw [this]
  simp

theorem chain_trim : ∀ (k s limit : ℕ) (par : ℕ → Bool) (rec : List ℕ), limit < k →
    trimForestRec limit (chain s k) s par rec = .error .recursionError
  | _, _, 0, _, _, _ => rfl
  | 0, _, limit + 1, _, _, h => absurd h (by omega)
  | k + 1, s, limit + 1, par, rec, h => by
    obtain ⟨k, rfl⟩ : ∃ k', k = k' + 1 := ⟨k - 1, by omega⟩
    unfold trimForestRec
    rw [chain_cons, List.find?_cons_of_pos (by simp)]
    simp only [if_true, List.erase_cons_head]
    rw [if_pos (chain_deg s k)]
    exact chain_trim (k + 1) (s + 1) limit _ _ (by omega)

/-- C93.  This is sharp: on a path with more edges than that, whatever the parities, `peeling` raises RecursionError. -/
theorem C93_path (limit k : ℕ) (h : limit < k) (par : ℕ → Bool) :
    peelingRec limit (List.range (k + 1)) (chain 0 k) par = .error .recursionError := by
  unfold peelingRec
  obtain ⟨k, rfl⟩ : ∃ k', k = k' + 1 := ⟨k - 1, by omega⟩
  have hd : degree (chain 0 (k + 1)) 0 = 1 := by
    rw [chain_cons]
    unfold degree
    rw [List.countP_cons]
    have : (chain (0 + 1) k).countP (fun e => decide (e.1 = 0 ∨ e.2.1 = 0)) = 0 := by
      rw [List.countP_eq_zero]
      intro e he
      unfold chain at he
      obtain ⟨i, hi, rfl⟩ := List.mem_map.1 he
      have := List.mem_range'_1.1 hi
      simp only [decide_eq_true_eq]
      omega
    rw [this]
    simp
  rw [List.range_succ_eq_map, List.filter_cons_of_pos (by simpa using hd), List.foldlM_cons, chain_trim _ _ _ _ _ h]
  rfl

theorem forest_length : ∀ (n : ℕ) (es : List (N × N × Q)) (S : Finset N), es.length = n → IsForest es → es ≠ [] →
    (∀ e ∈ es, e.1 ∈ S ∧ e.2.1 ∈ S) → es.length < S.card
  | 0, es, _, hl, _, hne, _ => absurd (List.length_eq_zero_iff.1 hl) hne
  | n + 1, es, S, hl, hf, hne, hS => by
    obtain ⟨v, hv⟩ := exists_leaf hf hne
    obtain ⟨e, he, hev⟩ := degree_pos.1 (by omega : 0 < degree es v)
    have hvS : v ∈ S := by
      rcases hev with rfl | rfl
      · exact (hS e he).1
      · exact (hS e he).2
    have hlen := List.length_erase_of_mem he
    have hd := degree_erase he v
    rw [if_pos hev] at hd
    have h0 : degree (es.erase e) v = 0 := by omega
    have hS' : ∀ e' ∈ es.erase e, e'.1 ∈ S.erase v ∧ e'.2.1 ∈ S.erase v := by
      intro e' he'
      have h1 := hS e' (List.mem_of_mem_erase he')
      have h2 : ¬ (e'.1 = v ∨ e'.2.1 = v) := fun h => by
        have := degree_pos.2 ⟨e', he', h⟩
        omega
      push Not at h2
      exact ⟨Finset.mem_erase.2 ⟨h2.1, h1.1⟩, Finset.mem_erase.2 ⟨h2.2, h1.2⟩⟩
    have hc := Finset.card_erase_of_mem hvS
    by_cases hz : es.erase e = []
    · have : es.length = 1 := by rw [hz] at hlen; simp at hlen; omega
      rw [this]
      exact Finset.one_lt_card.2 ⟨e.1, (hS e he).1, e.2.1, (hS e he).2, hf.no_loop he⟩
    · have := forest_length n (es.erase e) (S.erase v) (by omega) (hf.sublist List.erase_sublist) hz hS'
      omega

theorem grown_nodes {I : Input} {cv : List (Sym2 SNode × Option V)} {status : List (Sym2 SNode × Status)}
    {es : List (SNode × SNode × Option V)} (h : grownEdges I cv status = some es) : ∀ e ∈ es, e.1 ∈ I.nodes ∧ e.2.1 ∈ I.nodes := by
  intro e he
  unfold grownEdges at h
  generalize (status.reverse.filter fun x => decide (x.2 = .grown)) = l at h
  induction l generalizing es with
  | nil =>
    simp only [List.mapM_nil] at h
    cases h
    cases he
  | cons x l ih =>
    rw [List.mapM_cons] at h
    obtain ⟨y, hy, h⟩ := Option.bind_eq_some_iff.1 h
    obtain ⟨ys, hys, h⟩ := Option.bind_eq_some_iff.1 h
    cases h
    rcases List.mem_cons.1 he with rfl | he
    · split at hy
      · rename_i a b hab
        obtain ⟨q, _, rfl⟩ := Option.map_eq_some_iff.1 hy
        have ha : a ∈ I.nodes.filter fun n => decide (n ∈ x.1) := by rw [hab]; simp
        have hb : b ∈ I.nodes.filter fun n => decide (n ∈ x.1) := by rw [hab]; simp
        exact ⟨(List.mem_filter.1 ha).1, (List.mem_filter.1 hb).1⟩
      · cases hy
    · exact ih he hys

/-- C93.  So the Union-Find decoder gives its result whenever the stabilizer graph has at most one node more than nested calls are possible: for each
of the library routines, every set of weights and every syndrome. -/
theorem C93_decoder (cl : CompLib SNode) (sl : SpanLib SNode (Option V)) (io : IterOrder SNode) (fuel limit : ℕ) (h1 : 1 ≤ limit) (SG : StabGraph)
    (w : V → ℚ) (bits : V → Bool) (hn : SG.nodes.length ≤ limit + 1) :
    ufDecoderRec cl sl io fuel limit SG w bits = (ufDecoder cl sl io fuel SG w bits).map .ok := by
  unfold ufDecoderRec ufDecoder
  simp only
  cases hi : initState cl io (ufInput SG w bits) with
  | none => rfl
  | some so =>
    cases hu : unionFind io (ufInput SG w bits) fuel 0 so.1 so.2 with
    | none => simp [hu]
    | some s =>
      cases hs : spanningForest cl sl (ufInput SG w bits) SG.edges s.status with
      | none => simp [hu, hs]
      | some r =>
        have key : peelingRec limit r.1 r.2.1 r.2.2 = .ok (peeling r.1 r.2.1 r.2.2) := by
          refine C93_enough limit h1 _ _ _ fun v l hl => ?_
          have hle := hl.length_le
          unfold spanningForest at hs
          obtain ⟨es, hes, hs⟩ := Option.bind_eq_some_iff.1 hs
          cases hs
          simp only at hle ⊢
          by_cases hne : sl.find es = []
          · rw [hne] at hle
            simp only [List.length_nil] at hle
            omega
          · have := forest_length _ (sl.find es) (ufInput SG w bits).nodes.toFinset rfl (sl.forest es) hne fun e he => by
              have := grown_nodes hes e ((sl.sublist es).subset he)
              exact ⟨List.mem_toFinset.2 this.1, List.mem_toFinset.2 this.2⟩
            have h3 := List.toFinset_card_le (ufInput SG w bits).nodes
            have h4 : (ufInput SG w bits).nodes = SG.nodes := rfl
            rw [h4] at h3 this
            omega
        simp [hu, hs, key]
        rfl

example : (∀ v l, IsTrail (chain 0 3) v l → l.length ≤ 3) ∧
    peelingRec 3 [0, 1, 2, 3] (chain 0 3) (fun v => v == 0 || v == 3) ≠ .error .recursionError ∧
    peelingRec 2 [0, 1, 2, 3] (chain 0 3) (fun v => v == 0 || v == 3) = .error .recursionError := by
  have hl : ∀ v l, IsTrail (chain 0 3) v l → l.length ≤ 3 := fun v l h => IsTrail.length_le l (chain 0 3) v h
  refine ⟨hl, ?_, ?_⟩
  · rw [C93_enough 3 (by omega) _ _ _ hl]
    exact fun h => by cases h
  · exact C93_path 2 3 (by omega) _

end Flamingpy.UnionFind
