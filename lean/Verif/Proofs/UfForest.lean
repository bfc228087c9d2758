import Verif.Proofs.UfTerm
import Verif.Proofs.PeelCount

/-! # The spanning forest of the grown edges, and peeling it -/

namespace Flamingpy.UnionFind

open Flamingpy SurfaceCode

/-- Every real edge has its own qubit label. -/
structure Labels (I : Input) (cv : List (Sym2 SNode × Option V)) : Prop where
  some : ∀ e ∈ realE I.E, ∃ q, PyDict.get? cv e = some q
  inj : ∀ e ∈ realE I.E, ∀ f ∈ realE I.E, PyDict.get? cv e = PyDict.get? cv f → e = f

theorem filter_pair {l : List SNode} (hl : l.Nodup) {e : Sym2 SNode} (hd : ¬ e.IsDiag) (he : ∀ v ∈ e, v ∈ l) :
    ∃ a b, l.filter (fun n => decide (n ∈ e)) = [a, b] ∧ s(a, b) = e := by
  induction e with
  | _ x y =>
    have hxy : x ≠ y := by simpa using hd
    have hp : (l.filter fun n => decide (n ∈ s(x, y))).Perm [x, y] := by
      refine (List.perm_ext_iff_of_nodup (hl.filter _) (by simp [hxy])).2 fun v => ?_
      rw [List.mem_filter, decide_eq_true_eq, Sym2.mem_iff, List.mem_cons, List.mem_singleton]
      refine ⟨fun h => h.2, fun h => ⟨he v (Sym2.mem_iff.2 h), h⟩⟩
    obtain ⟨a, b, hab⟩ := List.length_eq_two.1 hp.length_eq
    rw [hab] at hp
    refine ⟨a, b, hab, ?_⟩
    have ha : a ∈ [x, y] := hp.subset (by simp)
    have hb : b ∈ [x, y] := hp.subset (by simp)
    have hne : a ≠ b := by
      have := hl.filter (fun n => decide (n ∈ s(x, y)))
      rw [hab] at this
      simpa using this
    simp only [List.mem_cons, List.not_mem_nil, or_false] at ha hb
    rcases ha with rfl | rfl <;> rcases hb with rfl | rfl
    · exact absurd rfl hne
    · rfl
    · exact Sym2.eq_swap
    · exact absurd rfl hne

theorem grownEdges_spec {I : Input} (hI : Wf I) {cv : List (Sym2 SNode × Option V)} (hcv : Labels I cv)
    {st : List (Sym2 SNode × Status)} (hst : SInv I st) :
    ∃ es, grownEdges I cv st = some es ∧ (∀ k, k ∈ links es ↔ k ∈ grownL st) ∧
      (∀ e ∈ es, PyDict.get? cv s(e.1, e.2.1) = some e.2.2) ∧ (es.map fun e => e.2.2).Nodup := by
  have hreal : ∀ x ∈ st, x.1 ∈ realE I.E := fun x hx => (hst.keys _).1 (List.mem_map.2 ⟨x, hx, rfl⟩)
  let f : Sym2 SNode × Status → Option (SNode × SNode × Option V) := fun x =>
    match I.nodes.filter fun n => decide (n ∈ x.1) with
    | [a, b] => (PyDict.get? cv s(a, b)).map fun q => (a, b, q)
    | _ => none
  have hf : ∀ x ∈ st, ∃ y, f x = some y ∧ s(y.1, y.2.1) = x.1 ∧ PyDict.get? cv x.1 = some y.2.2 := by
    intro x hx
    have hr := hreal x hx
    obtain ⟨a, b, hab, he⟩ := filter_pair hI.nodup (hI.noloop _ hr) (hI.ends _ hr)
    obtain ⟨q, hq⟩ := hcv.some _ hr
    refine ⟨(a, b, q), ?_, he, hq⟩
    simp only [f, hab, he, hq]
    rfl
  let L := st.reverse.filter fun x => decide (x.2 = Status.grown)
  have hL : ∀ x, x ∈ L ↔ x ∈ st ∧ x.2 = .grown := fun x => by simp [L]
  have hLn : (L.map fun x => x.1).Nodup := by
    have h1 : (st.reverse.map fun x => x.1).Nodup := by
      rw [List.map_reverse]; exact List.nodup_reverse.2 hst.nodup
    exact h1.sublist (List.filter_sublist.map _)
  let g : Sym2 SNode × Status → SNode × SNode × Option V := fun x => (f x).getD (.low, .low, none)
  have hg : ∀ x ∈ st, f x = some (g x) ∧ s((g x).1, (g x).2.1) = x.1 ∧ PyDict.get? cv x.1 = some (g x).2.2 := by
    intro x hx
    obtain ⟨y, h1, h2, h3⟩ := hf x hx
    have : g x = y := by simp only [g, h1, Option.getD_some]
    rw [this]
    exact ⟨h1, h2, h3⟩
  refine ⟨L.map g, mapM_some' f g L fun x hx => (hg x ((hL x).1 hx).1).1, fun k => ?_, ?_, ?_⟩
  · rw [mem_grownL, lvl_two, PyDict.get?_iff_mem hst.nodup]
    unfold links
    rw [List.map_map, List.mem_map]
    constructor
    · rintro ⟨x, hx, rfl⟩
      obtain ⟨hx1, hx2⟩ := (hL x).1 hx
      simp only [Function.comp_apply]
      rw [(hg x hx1).2.1, ← hx2]
      exact hx1
    · intro hk
      exact ⟨_, (hL _).2 ⟨hk, rfl⟩, (hg _ hk).2.1⟩
  · intro e he
    obtain ⟨x, hx, rfl⟩ := List.mem_map.1 he
    obtain ⟨_, h2, h3⟩ := hg x ((hL x).1 hx).1
    rw [h2]; exact h3
  · rw [List.map_map]
    refine List.Nodup.map_on ?_ (List.Nodup.of_map _ hLn)
    intro x hx y hy hxy
    simp only [Function.comp_apply] at hxy
    have hx1 := ((hL x).1 hx).1
    have hy1 := ((hL y).1 hy).1
    have := hcv.inj _ (hreal x hx1) _ (hreal y hy1) (by rw [(hg x hx1).2.2, (hg y hy1).2.2, hxy])
    exact List.inj_on_of_nodup_map hLn hx hy this

/-! ### Parities -/

def oddStab (I : Input) (n : SNode) : Bool := match n with
  | .stab k => I.odd k
  | _ => false

def isStab (n : SNode) : Bool := match n with
  | .stab _ => true
  | _ => false

def tpStep (I : Input) (st : (SNode → Bool) × ℕ × Option SNode) (n : SNode) : (SNode → Bool) × ℕ × Option SNode :=
  match n with
  | .stab k => (Function.update st.1 n (I.odd k), if I.odd k then st.2.1 + 1 else st.2.1, st.2.2)
  | _ => (Function.update st.1 n false, st.2.1, some n)

theorem treeParity_eq (I : Input) (par : SNode → Bool) (tree : List SNode) : treeParity I par tree =
    if (tree.foldl (tpStep I) (par, 0, none)).2.1 % 2 = 1 then
      (tree.foldl (tpStep I) (par, 0, none)).2.2.elim (tree.foldl (tpStep I) (par, 0, none)).1
        fun b => Function.update (tree.foldl (tpStep I) (par, 0, none)).1 b true
    else (tree.foldl (tpStep I) (par, 0, none)).1 := by
  have h : ∀ st : (SNode → Bool) × ℕ × Option SNode, (if st.2.1 % 2 = 1 then match st.2.2 with
    | some b => Function.update st.1 b true
    | none => st.1
  else st.1) = if st.2.1 % 2 = 1 then st.2.2.elim st.1 fun b => Function.update st.1 b true else st.1 := by
    rintro ⟨a, b, _ | c⟩ <;> rfl
  exact h (tree.foldl (tpStep I) (par, 0, none))

theorem treeParity_fold (I : Input) (tree : List SNode) : ∀ (par : SNode → Bool) (c : ℕ) (b : Option SNode), ∃ par' b',
    tree.foldl (tpStep I) (par, c, b) = (par', c + tree.countP (oddStab I), b') ∧
    (∀ v, par' v = if v ∈ tree then oddStab I v else par v) ∧
    (b' = none → b = none ∧ ∀ v ∈ tree, isStab v = true) ∧
    (∀ x, b' = some x → b = some x ∨ (x ∈ tree ∧ isStab x = false)) := by
  induction tree with
  | nil => intro par c b; exact ⟨par, b, rfl, by simp, by simp, fun x hx => Or.inl hx⟩
  | cons n tree ih =>
    intro par c b
    rw [List.foldl_cons]
    have key : ∀ (nb : Option SNode), (nb = none → b = none ∧ isStab n = true) →
        (∀ x, nb = some x → b = some x ∨ (x = n ∧ isStab n = false)) →
        ∃ par' b', tree.foldl (tpStep I)
        (Function.update par n (oddStab I n), (if oddStab I n then c + 1 else c), nb) =
          (par', c + (n :: tree).countP (oddStab I), b') ∧
    (∀ v, par' v = if v ∈ n :: tree then oddStab I v else par v) ∧
    (b' = none → b = none ∧ ∀ v ∈ n :: tree, isStab v = true) ∧
    (∀ x, b' = some x → b = some x ∨ (x ∈ n :: tree ∧ isStab x = false)) := by
      intro nb h1 h2
      obtain ⟨par', b', e, hp, hn, hs⟩ := ih (Function.update par n (oddStab I n)) (if oddStab I n then c + 1 else c) nb
      refine ⟨par', b', ?_, fun v => ?_, fun hb => ?_, fun x hx => ?_⟩
      · rw [e, List.countP_cons]
        cases oddStab I n <;> simp [Nat.add_assoc, Nat.add_comm]
      · rw [hp]
        by_cases hv : v ∈ tree
        · simp [hv]
        · by_cases hvn : v = n
          · subst hvn; simp [hv]
          · simp [hv, hvn]
      · obtain ⟨h3, h4⟩ := hn hb
        refine ⟨(h1 h3).1, fun v hv => ?_⟩
        rcases List.mem_cons.1 hv with rfl | hv
        · exact (h1 h3).2
        · exact h4 v hv
      · rcases hs x hx with h3 | ⟨h3, h4⟩
        · rcases h2 x h3 with h5 | ⟨rfl, h6⟩
          · exact Or.inl h5
          · exact Or.inr ⟨by simp, h6⟩
        · exact Or.inr ⟨by simp [h3], h4⟩
    cases n with
    | stab k =>
      obtain ⟨par', b', h⟩ := key b (fun h => ⟨h, rfl⟩) (fun x hx => Or.inl hx)
      exact ⟨par', b', h⟩
    | low =>
      obtain ⟨par', b', h⟩ := key (some .low) (by simp) (fun x hx => Or.inr ⟨(Option.some.inj hx).symm, rfl⟩)
      exact ⟨par', b', h⟩
    | high =>
      obtain ⟨par', b', h⟩ := key (some .high) (by simp) (fun x hx => Or.inr ⟨(Option.some.inj hx).symm, rfl⟩)
      exact ⟨par', b', h⟩
    | pt p =>
      obtain ⟨par', b', h⟩ := key (some (.pt p)) (by simp) (fun x hx => Or.inr ⟨(Option.some.inj hx).symm, rfl⟩)
      exact ⟨par', b', h⟩

theorem treeParity_spec (I : Input) (par : SNode → Bool) (tree : List SNode) (hn : tree.Nodup) :
    (∀ v ∉ tree, treeParity I par tree v = par v) ∧
    (∀ v ∈ tree, isStab v = true → treeParity I par tree v = oddStab I v) ∧
    (((∃ v ∈ tree, isStab v = false) ∨ Even (tree.countP (oddStab I))) → Even (tree.countP (treeParity I par tree))) := by
  obtain ⟨par', b', e, hp, hnone, hsome⟩ := treeParity_fold I tree par 0 none
  have hcong : ∀ f : SNode → Bool, (∀ v ∈ tree, f v = oddStab I v) → tree.countP f = tree.countP (oddStab I) :=
    fun f hf => List.countP_congr fun v hv => by rw [hf v hv]
  have hval : treeParity I par tree = if (tree.countP (oddStab I)) % 2 = 1 then
      (b'.elim par' fun b => Function.update par' b true) else par' := by
    rw [treeParity_eq]
    simp only [e, Nat.zero_add]
  rw [hval]
  by_cases hodd : tree.countP (oddStab I) % 2 = 1
  · rw [if_pos hodd]
    cases hb : b' with
    | none =>
      simp only [Option.elim_none]
      obtain ⟨_, hall⟩ := hnone hb
      refine ⟨fun v hv => by rw [hp, if_neg hv], fun v hv _ => by rw [hp, if_pos hv], fun h => ?_⟩
      rcases h with ⟨v, hv, hs⟩ | h
      · rw [hall v hv] at hs; cases hs
      · rw [Nat.even_iff] at h; omega
    | some x =>
      simp only [Option.elim_some]
      rcases hsome x hb with h | ⟨hx, hxs⟩
      · cases h
      refine ⟨fun v hv => ?_, fun v hv hs => ?_, fun _ => ?_⟩
      · rw [Function.update_of_ne (fun h : v = x => hv (h ▸ hx)), hp, if_neg hv]
      · rw [Function.update_of_ne (fun h => by rw [h, hxs] at hs; cases hs), hp, if_pos hv]
      · have hox : oddStab I x = false := by cases x <;> simp_all [isStab, oddStab]
        rw [countP_split tree (oddStab I) (fun v => v == x)]
        · have : tree.countP (fun v => v == x) = 1 := List.count_eq_one_of_mem hn hx
          rw [this, Nat.even_iff]; omega
        · intro u hu
          by_cases hux : u = x
          · subst hux; simp
          · rw [Function.update_of_ne hux, hp, if_pos hu]; simp [hux]
        · intro u _ ho
          rw [beq_eq_false_iff_ne]
          rintro rfl
          rw [hox] at ho; cases ho
  · rw [if_neg hodd]
    refine ⟨fun v hv => by rw [hp, if_neg hv], fun v hv _ => by rw [hp, if_pos hv], fun _ => ?_⟩
    rw [hcong par' fun v hv => by rw [hp, if_pos hv], Nat.even_iff]; omega

theorem treeParity_even (I : Input) (par : SNode → Bool) (tree : List SNode) (he : Even (tree.countP (oddStab I))) :
    ∀ v ∈ tree, treeParity I par tree v = oddStab I v := by
  obtain ⟨par', b', e, hp, -, -⟩ := treeParity_fold I tree par 0 none
  have hval : treeParity I par tree = par' := by
    rw [treeParity_eq]
    simp only [e, Nat.zero_add]
    rw [if_neg]
    rw [Nat.even_iff] at he
    omega
  intro v hv
  rw [hval, hp, if_pos hv]

theorem treeParity_all (I : Input) (cs : List (List SNode)) (hn : cs.flatten.Nodup) : ∀ par : SNode → Bool,
    (∀ v ∉ cs.flatten, cs.foldl (treeParity I) par v = par v) ∧
    ∀ c ∈ cs, ∃ par0, ∀ v ∈ c, cs.foldl (treeParity I) par v = treeParity I par0 c v := by
  induction cs with
  | nil => intro par; exact ⟨fun _ _ => rfl, by simp⟩
  | cons c cs ih =>
    intro par
    rw [List.flatten_cons, List.nodup_append] at hn
    obtain ⟨h1, h2, h3⟩ := hn
    obtain ⟨ih1, ih2⟩ := ih h2 (treeParity I par c)
    rw [List.foldl_cons]
    refine ⟨fun v hv => ?_, fun d hd => ?_⟩
    · rw [List.flatten_cons, List.mem_append] at hv
      push Not at hv
      rw [ih1 v hv.2, (treeParity_spec I par c h1).1 v hv.1]
    · rcases List.mem_cons.1 hd with rfl | hd
      · exact ⟨par, fun v hv => ih1 v fun hc => h3 v hv v hc rfl⟩
      · exact ih2 d hd

/-! ### Decoding -/

theorem decode_spec (cl : CompLib SNode) (sl : SpanLib SNode (Option V)) {I : Input} (hI : Wf I)
    {cv : List (Sym2 SNode × Option V)} (hcv : Labels I cv) {s : St} {rep : SNode → SNode} {dep : SNode → ℕ}
    (H : CInv I s (grownL s.status) [] rep dep) :
    ∃ ns fs par, spanningForest cl sl I cv s.status = some (ns, fs, par) ∧ (peeling ns fs par).1 = [] ∧
      (peeling ns fs par).2.2.Nodup ∧ (fs.map fun e => e.2.2).Nodup ∧
      (∀ e ∈ fs, s(e.1, e.2.1) ∈ grownL s.status ∧ PyDict.get? cv s(e.1, e.2.1) = some e.2.2) ∧
      (∀ q ∈ (peeling ns fs par).2.2, q ∈ fs.map fun e => e.2.2) ∧
      (∀ k, SNode.stab k ∈ erasureNodes I → (Odd (fs.countP fun e =>
        decide (e.2.2 ∈ (peeling ns fs par).2.2 ∧ (e.1 = .stab k ∨ e.2.1 = .stab k))) ↔ I.odd k = true)) ∧
      ∀ v, isStab v = false → Even (oddComp I (grownL s.status) v).ncard →
        Even (fs.countP fun e => decide (e.2.2 ∈ (peeling ns fs par).2.2 ∧ (e.1 = v ∨ e.2.1 = v))) := by
  obtain ⟨es, hes, hlk, hlab, hq⟩ := grownEdges_spec hI hcv H.status
  have hgrown : ∀ e ∈ es, s(e.1, e.2.1) ∈ grownL s.status := fun e he => (hlk _).1 (List.mem_map.2 ⟨e, he, rfl⟩)
  have hreal : ∀ e ∈ es, s(e.1, e.2.1) ∈ realE I.E := fun e he => grownL_sub H.status (hgrown e he)
  set ns := forestNodes I es with hns
  set fs := sl.find es with hfs
  have hsub := sl.sublist es
  rw [← hfs] at hsub
  have hmemns : ∀ v, v ∈ ns ↔ ∃ e ∈ es, e.1 = v ∨ e.2.1 = v := by
    intro v
    rw [hns]
    unfold forestNodes
    rw [List.mem_filter, List.any_eq_true]
    simp only [decide_eq_true_eq]
    refine ⟨fun h => h.2, fun ⟨e, he, hv⟩ => ⟨hI.ends _ (hreal e he) v ?_, e, he, hv⟩⟩
    rw [Sym2.mem_iff]; exact hv.imp Eq.symm Eq.symm
  have hnsn : ns.Nodup := hI.nodup.filter _
  have hfsns : ∀ e ∈ fs, e.1 ∈ ns ∧ e.2.1 ∈ ns := fun e he =>
    ⟨(hmemns _).2 ⟨e, hsub.subset he, Or.inl rfl⟩, (hmemns _).2 ⟨e, hsub.subset he, Or.inr rfl⟩⟩
  have hfsq : (fs.map fun e => e.2.2).Nodup := hq.sublist (hsub.map _)
  have hconn : ∀ u v, Conn (links fs) u v ↔ Conn (grownL s.status) u v := by
    intro u v
    constructor
    · intro h
      refine h.mono fun k hk => (hlk k).1 ?_
      exact (hsub.map _).subset hk
    · intro h
      refine h.lift fun a b hab => ?_
      obtain ⟨e, he, hek⟩ := List.mem_map.1 ((hlk _).2 hab)
      have hc := sl.conn es e he
      rcases Sym2.eq_iff.1 hek with ⟨h1, h2⟩ | ⟨h1, h2⟩
      · rw [← h1, ← h2]; exact hc
      · rw [← h1, ← h2]; exact hc.symm
  set cs := cl.find ns (links fs) with hcs
  have hflat : cs.flatten.Perm ns := cl.perm ns _ hnsn
  have hflatn : cs.flatten.Nodup := hflat.nodup_iff.2 hnsn
  set par := cs.foldl (treeParity I) fun _ => false with hpar
  obtain ⟨_, hall⟩ := treeParity_all I cs hflatn fun _ => false
  have hends : ∀ e ∈ links fs, ∀ v ∈ e, v ∈ ns := by
    intro e he v hv
    obtain ⟨x, hx, rfl⟩ := List.mem_map.1 he
    rcases Sym2.mem_iff.1 hv with rfl | rfl
    · exact (hfsns x hx).1
    · exact (hfsns x hx).2
  have hnsE : ∀ v ∈ ns, v ∈ erasureNodes I := by
    intro v hv
    obtain ⟨e, he, hv⟩ := (hmemns v).1 hv
    exact (mem_erasureNodes hI).2 ⟨_, hreal e he, Sym2.mem_iff.2 (hv.imp Eq.symm Eq.symm)⟩
  have hcomp : ∀ v ∈ ns, ∃ c ∈ cs, v ∈ c ∧ c.Nodup ∧ ∀ u, u ∈ c ↔ u ∈ ns ∧ Conn (links fs) v u := by
    intro v hv
    obtain ⟨c, hc, hvc⟩ := List.mem_flatten.1 (hflat.mem_iff.2 hv)
    refine ⟨c, hc, hvc, (List.nodup_flatten.1 hflatn).1 c hc, fun u => ⟨fun hu => ?_, fun hu => ?_⟩⟩
    · have hun : u ∈ ns := hflat.mem_iff.1 (List.mem_flatten.2 ⟨c, hc, hu⟩)
      exact ⟨hun, (cl.comp ns _ hends c hc v hvc u hun).1 hu⟩
    · exact (cl.comp ns _ hends c hc v hvc u hu.1).2 hu.2
  have hstay : ∀ v ∈ ns, ∀ u, Conn (links fs) v u → u ∈ ns := by
    intro v hv u h
    induction h with
    | refl => exact hv
    | tail _ hyz _ => exact hends _ hyz _ (by simp)
  have hoc : ∀ v ∈ ns, ∀ c : List SNode, c.Nodup → (∀ u, u ∈ c ↔ u ∈ ns ∧ Conn (links fs) v u) →
      Even (oddComp I (grownL s.status) v).ncard → Even (c.countP (oddStab I)) := by
    intro v hv c hcn hmem he
    have h3 : oddComp I (grownL s.status) v = {u | u ∈ c ∧ oddStab I u = true} := by
      ext u
      unfold oddComp
      simp only [Set.mem_ofPred_eq, hmem]
      constructor
      · rintro ⟨j, rfl, _, hj, hjc⟩
        have := (hconn _ _).2 hjc
        exact ⟨⟨hstay v hv _ this, this⟩, hj⟩
      · rintro ⟨⟨h4, h5⟩, h6⟩
        cases u with
        | stab j => exact ⟨j, rfl, (erasureNodes_sub hI (hnsE _ h4)).1, h6, (hconn _ _).1 h5⟩
        | low => cases h6
        | high => cases h6
        | pt p => cases h6
    rw [h3, ncard_countP hcn] at he
    have h4 : (c.countP fun u => decide (oddStab I u = true)) = c.countP (oddStab I) :=
      List.countP_congr fun u hu => by simp
    rwa [h4] at he
  have heven : ∀ v ∈ ns, Even {u | u ∈ ns ∧ Conn (links fs) v u ∧ par u = true}.ncard := by
    intro v hv
    obtain ⟨c, hc, hvc, hcn, hmem⟩ := hcomp v hv
    obtain ⟨par0, hp0⟩ := hall c hc
    have h1 : {u | u ∈ ns ∧ Conn (links fs) v u ∧ par u = true} = {u | u ∈ c ∧ par u = true} := by
      ext u; simp only [Set.mem_ofPred_eq, hmem, and_assoc]
    rw [h1, ncard_countP hcn]
    have h2 : (c.countP fun u => decide (par u = true)) = c.countP (treeParity I par0 c) :=
      List.countP_congr fun u hu => by rw [hpar, hp0 u hu]; simp
    rw [h2]
    refine (treeParity_spec I par0 c hcn).2.2 ?_
    rcases H.final hI (hnsE v hv) with ⟨p, hp⟩ | he
    · have := (hconn _ _).2 hp
      exact Or.inl ⟨.pt p, (hmem _).2 ⟨hstay v hv _ this, this⟩, rfl⟩
    · right
      exact hoc v hv c hcn hmem he
  obtain ⟨hp1, _, hp3, hp4, hp5⟩ := peeling_count ns fs par (by rw [hfs]; exact sl.forest es) hfsq hfsns heven
  refine ⟨ns, fs, par, ?_, hp1, hp3, hfsq, fun e he => ⟨hgrown e (hsub.subset he), hlab e (hsub.subset he)⟩, hp4,
    fun k hk => ?_, fun v hs he => ?_⟩
  · unfold spanningForest
    rw [hes]
    rfl
  · by_cases hkn : SNode.stab k ∈ ns
    · have h5 := hp5 _ hkn
      refine Iff.trans (by convert h5) ?_
      obtain ⟨c, hc, hvc, hcn, _⟩ := hcomp _ hkn
      obtain ⟨par0, hp0⟩ := hall c hc
      rw [hpar, hp0 _ hvc, (treeParity_spec I par0 c hcn).2.1 _ hvc rfl]
      rfl
    · have hz : (fs.countP fun e => decide (e.2.2 ∈ (peeling ns fs par).2.2 ∧ (e.1 = .stab k ∨ e.2.1 = .stab k))) = 0 := by
        rw [List.countP_eq_zero]
        intro e he
        rw [decide_eq_true_eq]
        rintro ⟨_, h | h⟩
        · exact hkn (h ▸ (hfsns e he).1)
        · exact hkn (h ▸ (hfsns e he).2)
      rw [hz]
      refine ⟨fun h => absurd h (by decide), fun h => ?_⟩
      exfalso
      have hiso : ∀ u, Conn (grownL s.status) (.stab k) u → u = .stab k := by
        intro u hu
        induction hu with
        | refl => rfl
        | @tail y z _ hyz ih =>
          subst ih
          obtain ⟨e, he, hek⟩ := List.mem_map.1 ((hlk _).2 hyz)
          exfalso
          apply hkn
          rw [hmemns]
          refine ⟨e, he, ?_⟩
          rcases Sym2.eq_iff.1 hek with ⟨h1, _⟩ | ⟨_, h1⟩
          · exact Or.inl h1
          · exact Or.inr h1
      rcases H.final hI hk with ⟨p, hp⟩ | he
      · cases hiso _ hp
      · have : oddComp I (grownL s.status) (.stab k) = {SNode.stab k} := by
          ext u
          constructor
          · rintro ⟨j, rfl, _, _, hc⟩; exact hiso _ hc
          · rintro rfl; exact ⟨k, rfl, (erasureNodes_sub hI hk).1, h, Conn.refl _ _⟩
        rw [this, Set.ncard_singleton] at he
        exact absurd he (by decide)
  · by_cases hv : v ∈ ns
    · rw [← Nat.not_odd_iff_even]
      intro hodd
      have h5 := (hp5 _ hv).1 (by convert hodd)
      obtain ⟨c, hc, hvc, hcn, hmem⟩ := hcomp _ hv
      obtain ⟨par0, hp0⟩ := hall c hc
      rw [hpar, hp0 _ hvc, treeParity_even I par0 c (hoc v hv c hcn hmem he) v hvc] at h5
      have : oddStab I v = false := by
        clear h5 hodd he hvc hmem hv
        cases v <;> first | rfl | cases hs
      rw [this] at h5
      cases h5
    · have hz : (fs.countP fun e => decide (e.2.2 ∈ (peeling ns fs par).2.2 ∧ (e.1 = v ∨ e.2.1 = v))) = 0 := by
        rw [List.countP_eq_zero]
        intro e he
        rw [decide_eq_true_eq]
        rintro ⟨_, h | h⟩
        · exact hv (h ▸ (hfsns e he).1)
        · exact hv (h ▸ (hfsns e he).2)
      rw [hz]
      exact Even.zero

end Flamingpy.UnionFind
