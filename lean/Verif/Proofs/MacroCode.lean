import Verif.Proofs.MacroLattice
import Verif.Props.EGraph
import Verif.Props.Macro
import Verif.Props.SurfaceCode

/-! # The macronode layer of a surface code is well-formed -/

namespace Flamingpy.EGraph

open Flamingpy

theorem pointsInOrder_zip (l : List Pt) :
    pointsInOrder ((l.zip (List.range l.length)).map swp) l.length = some l := by
  unfold pointsInOrder
  rw [mapM_some_iff]
  apply List.ext_getElem (by simp)
  intro i h1 h2
  simp only [List.length_map] at h1 h2
  rw [List.getElem_map, List.getElem_map, List.getElem_range]
  rw [PyDict.get?_iff_mem]
  · rw [List.mem_map]
    refine ⟨(l[i], i), ?_, rfl⟩
    rw [List.mem_iff_getElem]
    exact ⟨i, by simp [h2], by simp⟩
  · rw [keys_swp, values_zip]
    exact List.nodup_range

/-- `adj_generator()` on a macronode graph whose dictionary lists every micronode once. -/
theorem adj_macro {g : EG} (h : Fresh g) (hm : g.macronodes = true) {md : List (Pt × List Pt)}
    (hmd : g.macroToMicro = some md) (hp : (md.flatMap (·.2)).Perm g.nodes) :
    ∃ g', adjGenerator g = (.ok (((sorted (PyDict.keys md)).flatMap fun v => (PyDict.get? md v).getD []).map fun u =>
        ((sorted (PyDict.keys md)).flatMap fun v => (PyDict.get? md v).getD []).map fun v => weight g u v), g') ∧
      pointsInOrder (g'.toPoints.getD []) g'.nodes.length =
        some ((sorted (PyDict.keys md)).flatMap fun v => (PyDict.get? md v).getD []) ∧
      ((sorted (PyDict.keys md)).flatMap fun v => (PyDict.get? md v).getD []).Perm g.nodes := by
  rcases indexGenerator_none h.inv h.no_indices with ⟨e, _, _, hc⟩ | ⟨l, hl, _, hl2, he⟩
  · exact absurd hp (hc md hmd)
  · have hle := hl2 md hm hmd
    rw [← hle]
    rw [adjGenerator_eq_of_index h.no_matrix h.no_points he rfl h.no_matrix]
    have hpts : pointsInOrder ((l.zip (List.range l.length)).map swp) g.nodes.length = some l := by
      rw [← hl.length_eq]; exact pointsInOrder_zip l
    have hall : (l.all fun p => decide (p ∈ g.nodes)) = true := by
      rw [List.all_eq_true]
      intro p hp
      simpa using hl.mem_iff.1 hp
    unfold adjGenerator
    simp only [h.no_matrix, Option.getD_some, hpts, hall, if_true]
    exact ⟨_, rfl, hpts, hl⟩

end Flamingpy.EGraph

namespace Flamingpy.Noise

open Flamingpy Flamingpy.SurfaceCode Flamingpy.EGraph Flamingpy.Macronize

/-! ### Lists -/

theorem flatMap_four {α β : Type} (f : α → List β) (l : List α) (h : ∀ a ∈ l, (f a).length = 4) (i : ℕ) :
    (l.flatMap f)[i]? = (l[i / 4]?).bind fun a => (f a)[i % 4]? := by
  induction l generalizing i with
  | nil => simp
  | cons a l ih =>
    rw [List.flatMap_cons]
    have ha := h a (by simp)
    by_cases hi : i < 4
    · rw [List.getElem?_append_left (by omega)]
      have h1 : i / 4 = 0 := by omega
      have h2 : i % 4 = i := by omega
      rw [h1, h2]; rfl
    · rw [List.getElem?_append_right (by omega), ha, ih (fun b hb => h b (by simp [hb]))]
      have h1 : i / 4 = (i - 4) / 4 + 1 := by omega
      have h2 : i % 4 = (i - 4) % 4 := by omega
      rw [h1, h2, List.getElem?_cons_succ]

theorem flatMap_four_length {α β : Type} (f : α → List β) (l : List α) (h : ∀ a ∈ l, (f a).length = 4) :
    (l.flatMap f).length = 4 * l.length := by
  induction l with
  | nil => rfl
  | cons a l ih =>
    rw [List.flatMap_cons, List.length_append, h a (by simp), ih fun b hb => h b (by simp [hb]), List.length_cons]
    ring

theorem flatMap_single {α β : Type} [DecidableEq α] (l : List α) (hl : l.Nodup) (a : α) (v : β) :
    (l.flatMap fun x => if a = x then [v] else []) = if a ∈ l then [v] else [] := by
  induction l with
  | nil => rfl
  | cons x l ih =>
    rw [List.nodup_cons] at hl
    rw [List.flatMap_cons, ih hl.2]
    by_cases h : a = x
    · subst h
      simp [hl.1]
    · simp [h]

/-- Neighbours of a set of points, collected from a list of directed edges. -/
theorem flatMap_out {α β : Type} [DecidableEq α] (l : List α) (hl : l.Nodup) (B : List (α × β)) :
    (l.flatMap fun x => (B.filter fun e => decide (e.1 = x)).map (·.2)).Perm
      ((B.filter fun e => decide (e.1 ∈ l)).map (·.2)) := by
  induction B with
  | nil => simp
  | cons e B ih =>
    have h1 : (fun x => ((e :: B).filter fun e => decide (e.1 = x)).map (·.2)) =
        fun x => (if e.1 = x then [e.2] else []) ++ (B.filter fun e => decide (e.1 = x)).map (·.2) := by
      funext x
      rw [List.filter_cons]
      by_cases h : e.1 = x <;> simp [h]
    rw [h1]
    refine (List.flatMap_append_perm l _ _).symm.trans ?_
    rw [flatMap_single l hl, List.filter_cons]
    by_cases h : e.1 ∈ l
    · simp only [h, if_true, decide_true, List.map_cons, List.singleton_append]
      exact ih.cons _
    · simp only [h, if_false, decide_false, List.nil_append, Bool.false_eq_true]
      exact ih

/-- Both orientations of the edges of the macronode graph. -/
def dirs (E : List (Pt × Pt)) : List (Pt × Pt) := E.flatMap fun e => [(e.1, e.2), (e.2, e.1)]

theorem macroNbrs_eq (m : MG) (hne : ∀ e ∈ m.edges, e.1 ≠ e.2) (v : Pt) :
    macroNbrs m v = ((dirs m.edges).filter fun e => decide (e.1 = v)).map (·.2) := by
  unfold macroNbrs dirs
  generalize m.edges = E at hne
  induction E with
  | nil => rfl
  | cons e E ih =>
    have h0 := hne e (by simp)
    have ih := ih fun e he => hne e (by simp [he])
    rw [List.flatMap_cons, List.filter_append, List.map_append, List.filterMap_cons]
    rw [← ih]
    by_cases h1 : e.1 = v
    · have h2 : ¬ e.2 = v := fun h => h0 (h1.trans h.symm)
      simp [h1, h2]
    · by_cases h2 : e.2 = v <;> simp [h1, h2]

theorem mem_dirs {E : List (Pt × Pt)} {x y : Pt} : (x, y) ∈ dirs E ↔ (x, y) ∈ E ∨ (y, x) ∈ E := by
  unfold dirs
  rw [List.mem_flatMap]
  constructor
  · rintro ⟨e, he, h⟩
    simp only [List.mem_cons, List.not_mem_nil, or_false, Prod.mk.injEq] at h
    rcases h with ⟨rfl, rfl⟩ | ⟨rfl, rfl⟩
    · left; exact he
    · right; exact he
  · rintro (h | h)
    · exact ⟨_, h, by simp⟩
    · exact ⟨_, h, by simp⟩

theorem dirs_fst (E : List (Pt × Pt)) : (dirs E).map (·.1) = E.flatMap fun e => [e.1, e.2] := by
  unfold dirs
  rw [List.map_flatMap]
  rfl

theorem mem_macroNbrs {m : MG} (hne : ∀ e ∈ m.edges, e.1 ≠ e.2) {x y : Pt} :
    y ∈ macroNbrs m x ↔ (x, y) ∈ m.edges ∨ (y, x) ∈ m.edges := by
  rw [macroNbrs_eq m hne, ← mem_dirs, List.mem_map]
  constructor
  · rintro ⟨e, he, rfl⟩
    rw [List.mem_filter, decide_eq_true_eq] at he
    rw [← he.2]; exact he.1
  · intro h
    exact ⟨(x, y), List.mem_filter.2 ⟨h, by simp⟩, rfl⟩

theorem macroNbrs_le {m : MG} (hne : ∀ e ∈ m.edges, e.1 ≠ e.2)
    (hnd : (m.edges.flatMap fun e => [e.1, e.2]).Nodup) (x : Pt) :
    macroNbrs m x = [] ∨ ∃ y, macroNbrs m x = [y] := by
  have h1 : ((dirs m.edges).filter fun e => decide (e.1 = x)).length ≤ 1 := by
    rw [← List.countP_eq_length_filter]
    have : (dirs m.edges).countP (fun e => decide (e.1 = x)) = ((dirs m.edges).map (·.1)).count x := by
      rw [List.count, List.countP_map]
      congr 1
      funext e
      simp [Bool.beq_eq_decide_eq]
    rw [this, dirs_fst]
    exact List.nodup_iff_count_le_one.1 hnd x
  rw [macroNbrs_eq m hne]
  generalize (dirs m.edges).filter (fun e => decide (e.1 = x)) = l at h1
  match l, h1 with
  | [], _ => left; rfl
  | [e], _ => right; exact ⟨e.2, rfl⟩

section

variable {o : SetOrder} {ec : Ec} {b : Boundaries} {dims : Fin 3 → ℕ} {pol : Option (V → V → ℤ)} {code : Code}

theorem boundStr_periodic (ec : Ec) (b : Boundaries) : boundStr ec b = "periodic" ↔ b = .periodic := by
  cases ec <;> cases b <;> simp [boundStr]

/-- The macronode layer of a code: it exists, is well-formed, and the macronodes around `x` are the neighbours
of `x`. -/
theorem macroLayer_ok (hd : ∀ i, 2 ≤ dims i) (hc : surfaceCode o ec b dims pol = some code)
    (hw : ∀ x y w, PyDict.get? code.graph.edges s(x, y) = some w → w.1 = 1 ∨ w.1 = -1)
    {oriented : List (V × V × Bool)} (ho : Oriented code oriented) {delta : ℝ} (h0 : 0 ≤ delta) (pSwap : Option ℝ)
    (supplied : Option (List (String × List ℕ))) {states : List (String × List ℕ)}
    (hs : initStates pSwap supplied = some states) :
    ∃ M cs, macroLayer code oriented delta pSwap supplied = some M ∧ MacroOk M cs ∧
      M.layer.states = states ∧ M.layer.delta = delta ∧ M.layer.pSwap = pSwap ∧
      (∀ c, c ∈ cs ↔ ∃ x ∈ PyDict.keys code.graph.nodes, c = toPt x) ∧
      (∀ i j, M.layer.pts[j] ∈ M.nbrs M.layer.pts[i] → ∃ x y, s(x, y) ∈ PyDict.keys code.graph.edges ∧
        M.centre M.layer.pts[i] = toPt x ∧ M.centre M.layer.pts[j] = toPt y ∧ M.layer.adj i j = polarityOf code x y) ∧
      ∀ x ∈ PyDict.keys code.graph.nodes, (M.around (toPt x)).Perm ((neighbors code x).map toPt) := by
  obtain ⟨hgr, hec, hb, _⟩ := code_graph hc
  have hlat := canGraph_lattice hd hc ho
  have hdeg : ∀ v ∈ (canGraph code oriented).nodes, 1 ≤ degree (canGraph code oriented) v ∧
      degree (canGraph code oriented) v ≤ 4 ∧ (b = .periodic → degree (canGraph code oriented) v = 4) := by
    intro v hv
    obtain ⟨x, hx, rfl⟩ := List.mem_map.1 hv
    rw [canGraph_degree hd hc ho]
    exact code_degree hd hc hx
  set pad := decide (boundStr code.ec code.boundaries ≠ "periodic") with hpad
  have hpad' : pad = false → b = .periodic := by
    intro h
    rw [hpad, hec, hb] at h
    simpa [boundStr_periodic] using h
  obtain ⟨m, m1, m2, m3, m4, m5, m6, m7, m8, m9, m10, m11, m12, _⟩ := C20_macronize hlat (pad := pad) (disp := 1 / 10)
    (by norm_num) (by norm_num) (fun _ => ⟨Or.inr (by norm_num), fun v hv => ⟨(hdeg v hv).1, (hdeg v hv).2.1⟩⟩) rfl
  have hfour : ∀ v ∈ (canGraph code oriented).nodes, (micros m v).length = 4 := by
    intro v hv
    rw [m6 v hv]
    cases hp : pad with
    | true => rfl
    | false => exact (hdeg v hv).2.2 (hpad' hp)
  -- keys of the dictionary
  have hkeys : ∀ v, v ∈ PyDict.keys m.dict ↔ v ∈ (canGraph code oriented).nodes := by
    intro v
    constructor
    · intro hv
      obtain ⟨e, he, rfl⟩ := List.mem_map.1 hv
      have hg := (PyDict.get?_iff_mem m3 e.1 e.2).2 he
      obtain ⟨p, hp⟩ := List.exists_mem_of_ne_nil _ (m10 e he)
      exact (m5 e.1 p (by unfold micros; rw [hg]; exact hp)).1
    · intro hv
      by_contra hn
      have h4 := hfour v hv
      unfold micros at h4
      rw [(PyDict.get?_eq_none _ _).2 hn] at h4
      simp at h4
  have hmic : ∀ v ∈ PyDict.keys m.dict, ∃ l, PyDict.get? m.dict v = some l ∧ micros m v = l := by
    intro v hv
    obtain ⟨l, hl⟩ := Option.isSome_iff_exists.1 ((PyDict.get?_isSome_iff _ _).2 hv)
    exact ⟨l, hl, by unfold micros; rw [hl]; rfl⟩
  -- edges
  have hne : ∀ e ∈ m.edges, e.1 ≠ e.2 := by
    intro e he hcc
    have hm : ∀ E : List (Pt × Pt), (E.flatMap fun e => [e.1, e.2]).Nodup → ∀ e ∈ E, e.1 ≠ e.2 := by
      intro E hE e he hcc
      induction E with
      | nil => cases he
      | cons f E ih =>
        rw [List.flatMap_cons, List.nodup_append] at hE
        rcases List.mem_cons.1 he with rfl | he
        · have := hE.1
          rw [hcc] at this
          simp at this
        · exact ih hE.2.1 he
    exact hm _ m11 e he hcc
  -- rounding
  have hround : ∀ p ∈ m.nodes, p ∈ micros m (roundPt p) ∧ roundPt p ∈ PyDict.keys m.dict := by
    intro p hp
    obtain ⟨e, he, hpe⟩ := List.mem_flatMap.1 (m4.mem_iff.2 hp)
    have hg := (PyDict.get?_iff_mem m3 e.1 e.2).2 he
    have hpm : p ∈ micros m e.1 := by unfold micros; rw [hg]; exact hpe
    rw [(m5 e.1 p hpm).2]
    exact ⟨hpm, List.mem_map_of_mem (f := (·.1)) he⟩
  have hmn : ∀ v, ∀ p ∈ micros m v, p ∈ m.nodes := by
    intro v p hp
    rw [← m4.mem_iff, List.mem_flatMap]
    unfold micros at hp
    cases hg : PyDict.get? m.dict v with
    | none => rw [hg] at hp; simp at hp
    | some l =>
      rw [hg] at hp
      exact ⟨(v, l), (PyDict.get?_iff_mem m3 v l).1 hg, hp⟩
  have hends : ∀ e ∈ m.edges, e.1 ∈ m.nodes ∧ e.2 ∈ m.nodes := by
    have key : ∀ (G : List (Pt × Pt × Bool)) (E : List (Pt × Pt)),
        List.Forall₂ (fun e f => f.1 ∈ micros m e.1 ∧ f.2 ∈ micros m e.2.1) G E →
        ∀ e ∈ E, e.1 ∈ m.nodes ∧ e.2 ∈ m.nodes := by
      intro G E hGE
      induction hGE with
      | nil => intro e he; cases he
      | cons h1 _ ih =>
        intro e he
        rcases List.mem_cons.1 he with rfl | he
        · exact ⟨hmn _ _ h1.1, hmn _ _ h1.2⟩
        · exact ih e he
    exact key _ _ m7
  -- the weights
  set ws := oriented.map fun e => polarityOf code e.1 e.2.1 with hws
  have hzip : ∀ {u v : Pt} {w : ℤ}, (u, v, w) ∈ (macroEG m ws).edges → ∃ k : ℕ, m.edges[k]? = some (u, v) ∧
      ∃ e ∈ oriented, w = polarityOf code e.1 e.2.1 ∧ roundPt u = toPt e.1 ∧ roundPt v = toPt e.2.1 ∧
        (oriented[k]?).map (fun e => polarityOf code e.1 e.2.1) = some w := by
    intro u v w h
    obtain ⟨⟨f, w'⟩, hf, hfe⟩ := List.mem_map.1 h
    simp only [Prod.mk.injEq] at hfe
    obtain ⟨h1, h2, rfl⟩ := hfe
    obtain ⟨k, hk⟩ := List.mem_iff_getElem?.1 hf
    rw [List.getElem?_zip_eq_some] at hk
    obtain ⟨hk1, hk2⟩ := hk
    simp only at hk1 hk2
    rw [hws, List.getElem?_map, Option.map_eq_some_iff] at hk2
    obtain ⟨e, he, hew⟩ := hk2
    have hR := List.forall₂_iff_get.1 m7
    obtain ⟨hkl, hkf⟩ := List.getElem?_eq_some_iff.1 hk1
    obtain ⟨hkl', hke⟩ := List.getElem?_eq_some_iff.1 he
    have := hR.2 k (by simpa [canGraph] using hkl') hkl
    simp only [canGraph, List.get_eq_getElem, List.getElem_map, hkf, hke] at this
    refine ⟨k, by rw [hk1, ← h1, ← h2], e, List.mem_of_getElem? he, hew.symm, ?_, ?_, by rw [he, Option.map_some, hew]⟩
    · rw [← h1]; exact (m5 _ _ this.1).2
    · rw [← h2]; exact (m5 _ _ this.2).2
  have hunzip : ∀ {f : Pt × Pt}, f ∈ m.edges → ∃ w, (f.1, f.2, w) ∈ (macroEG m ws).edges := by
    intro f hf
    obtain ⟨k, hk⟩ := List.mem_iff_getElem?.1 hf
    have hkl := (List.getElem?_eq_some_iff.1 hk).1
    have hlen : oriented.length = m.edges.length := by simpa [canGraph] using m7.length_eq
    have hk2 : ws[k]? = some (ws[k]'(by rw [hws, List.length_map]; omega)) := List.getElem?_eq_getElem _
    refine ⟨_, List.mem_map.2 ⟨(f, _), List.mem_of_getElem? (i := k) (List.getElem?_zip_eq_some.2 ⟨hk, hk2⟩), rfl⟩⟩
  have hedge : ∀ {e : V × V × Bool}, e ∈ oriented → s(e.1, e.2.1) ∈ PyDict.keys code.graph.edges := by
    intro e he
    have hm := ho.mem_iff.1 (List.mem_map_of_mem (f := fun e => (s(e.1, e.2.1), e.2.2)) he)
    obtain ⟨g, hg, hge⟩ := List.mem_map.1 hm
    simp only [Prod.mk.injEq] at hge
    rw [← hge.1]
    exact List.mem_map_of_mem (f := (·.1)) hg
  have hone : ∀ {e : V × V × Bool}, e ∈ oriented → polarityOf code e.1 e.2.1 = 1 ∨ polarityOf code e.1 e.2.1 = -1 := by
    intro e he
    obtain ⟨w, hw'⟩ := Option.isSome_iff_exists.1 ((PyDict.get?_isSome_iff _ _).2 (hedge he))
    unfold polarityOf
    rw [hw']
    exact hw _ _ _ hw'
  have hmend : m.edges.Nodup := by
    have hpair : ∀ (E : List (Pt × Pt)), (E.flatMap fun e => [e.1, e.2]).Nodup → E.Nodup := by
      intro E hE
      induction E with
      | nil => simp
      | cons a E ih =>
        rw [List.flatMap_cons, List.nodup_append] at hE
        rw [List.nodup_cons]
        exact ⟨fun ha => hE.2.2 a.1 (by simp) a.1 (List.mem_flatMap.2 ⟨a, ha, by simp⟩) rfl, ih hE.2.1⟩
    exact hpair _ m11
  -- the graph object
  have hfresh : EGraph.Fresh (macroEG m ws) := by
    refine ⟨m2, ?_, ?_, rfl, rfl, rfl, ?_⟩
    · rintro ⟨u, v, w⟩ he
      obtain ⟨k, hk, _⟩ := hzip he
      exact hends _ (List.mem_of_getElem? hk)
    · rintro ⟨u, v, w⟩ he ⟨u', v', w'⟩ he' hj
      obtain ⟨k, hk, _, _, _, _, _, hkw⟩ := hzip he
      obtain ⟨k', hk', _, _, _, _, _, hkw'⟩ := hzip he'
      simp only at hj
      have hnd := m11
      have hpair : ∀ (E : List (Pt × Pt)), (E.flatMap fun e => [e.1, e.2]).Nodup → ∀ e ∈ E, ∀ e' ∈ E,
          (e.1 ∈ [e'.1, e'.2]) → e = e' := by
        intro E hE e he e' he' hm
        induction E with
        | nil => cases he
        | cons a E ih =>
          rw [List.flatMap_cons, List.nodup_append] at hE
          rcases List.mem_cons.1 he with rfl | he
          · rcases List.mem_cons.1 he' with rfl | he'
            · rfl
            · exact absurd rfl (hE.2.2 e.1 (by simp) e.1 (List.mem_flatMap.2 ⟨e', he', hm⟩))
          · rcases List.mem_cons.1 he' with rfl | he'
            · rename_i hin _
              exact absurd rfl (hE.2.2 e.1 hm e.1 (List.mem_flatMap.2 ⟨e, by assumption, by simp⟩))
            · exact ih hE.2.1 he he'
      have hff : (u, v) = (u', v') := hpair _ m11 _ (List.mem_of_getElem? hk) _ (List.mem_of_getElem? hk')
        (by rcases hj with ⟨h1, _⟩ | ⟨h1, _⟩ <;> simp [h1])
      have hkk : k = k' := by
        obtain ⟨a1, a2⟩ := List.getElem?_eq_some_iff.1 hk
        obtain ⟨b1, b2⟩ := List.getElem?_eq_some_iff.1 hk'
        exact hmend.getElem_inj_iff.1 (a2.trans (hff.trans b2.symm))
      rw [hkk, hkw'] at hkw
      obtain rfl := Option.some.inj hkw
      simp only [Prod.mk.injEq] at hff
      rw [hff.1, hff.2]
    · intro md hmd
      obtain rfl := Option.some.inj hmd
      exact ⟨m3, m4.nodup_iff.2 m2, fun p hp => m4.mem_iff.1 hp⟩
  obtain ⟨g', a1, a2, a3⟩ := adj_macro hfresh rfl (md := m.dict) rfl m4
  set cs := sorted (PyDict.keys m.dict) with hcs
  have hcsp : cs.Perm (PyDict.keys m.dict) := sorted_perm _
  set pts := cs.flatMap fun v => (PyDict.get? m.dict v).getD [] with hpts
  have hcs4 : ∀ v ∈ cs, ((PyDict.get? m.dict v).getD []).length = 4 := by
    intro v hv
    exact hfour v ((hkeys v).1 (hcsp.mem_iff.1 hv))
  have hlen : pts.length = 4 * cs.length := flatMap_four_length _ _ hcs4
  have hptm : ∀ p, p ∈ pts ↔ p ∈ m.nodes := fun p => a3.mem_iff
  have hM : macroLayer code oriented delta pSwap supplied =
      some ⟨⟨pts, fun i j => ((((pts.map fun u => pts.map fun v => EGraph.weight (macroEG m ws) u v).getD i []).getD j 0 : ℤ) : ℝ), delta, pSwap,
        .twoStep, [], states, ⟨fun _ => none, fun _ => none, fun _ => none, fun _ => none⟩⟩,
      macroNbrs m, PyDict.get? m.dict, roundPt, (PyDict.keys code.graph.nodes).map toPt, [],
      fun _ => none, fun _ => none, fun _ => none, fun _ => none⟩ := by
    unfold macroLayer
    rw [← hpad, m1]
    simp only [Except.toOption, Option.bind_eq_bind, Option.bind_some]
    rw [a1]
    simp only [Option.bind_some]
    rw [a2]
    simp only [Option.bind_some]
    rw [hs]
    rfl
  have hent : ∀ i j : Fin pts.length, ((pts.map fun u => pts.map fun v => EGraph.weight (macroEG m ws) u v).getD i.val []).getD j.val 0 =
      EGraph.weight (macroEG m ws) pts[i] pts[j] := by
    intro i j
    simp [List.getD, List.getElem?_map]
  have hadj : ∀ i j : Fin pts.length, pts[j] ∈ macroNbrs m pts[i] → ∃ e : V × V × Bool, e ∈ oriented ∧
      ((roundPt pts[i] = toPt e.1 ∧ roundPt pts[j] = toPt e.2.1) ∨ (roundPt pts[i] = toPt e.2.1 ∧ roundPt pts[j] = toPt e.1)) ∧
      True ∧ ((((pts.map fun u => pts.map fun v => EGraph.weight (macroEG m ws) u v).getD i.val []).getD j.val 0 : ℤ) : ℝ) =
        polarityOf code e.1 e.2.1 := by
    intro i j hij
    rw [hent i j]
    rw [mem_macroNbrs hne] at hij
    rcases hij with h | h
    · obtain ⟨w, hw'⟩ := hunzip h
      have hwt := weight_of_mem hfresh.inv.uniq (Or.inl hw')
      obtain ⟨k, _, e, he, rfl, h1, h2, _⟩ := hzip hw'
      exact ⟨e, he, Or.inl ⟨h1, h2⟩, trivial, by rw [hwt]⟩
    · obtain ⟨w, hw'⟩ := hunzip h
      have hwt := weight_of_mem hfresh.inv.uniq (Or.inr hw')
      obtain ⟨k, _, e, he, rfl, h1, h2, _⟩ := hzip hw'
      exact ⟨e, he, Or.inr ⟨h2, h1⟩, trivial, by rw [hwt]⟩
  refine ⟨_, cs, hM, ?_, rfl, rfl, rfl, ?_, ?_, ?_⟩
  · refine ⟨a3.nodup_iff.2 m2, hlen, ?_, hcsp.nodup_iff.2 m3, ?_, ?_, ?_, ?_, ?_, ?_, ?_, rfl, h0⟩
    · -- a code has nodes
      have hok : IsCode code := ⟨o, ec, b, dims, pol, hd, hc⟩
      intro hnil
      have hx : ∃ x, x ∈ PyDict.keys code.graph.nodes := by
        have hnode : isNode dims (boundsOf ec b) ![1, 1, 2] ∨ isNode dims (boundsOf ec b) ![1, 1, 2] := by
          left
          refine ⟨fun i => ?_, by decide⟩
          have hdi := hd i
          cases ec <;> cases b <;> fin_cases i <;> simp [boundsOf, strToBound, boundStr, PyDict.get?, inAxis] <;>
            simp at hdi <;> omega
        rcases hnode with h | h <;> exact ⟨_, (code_nodes hd hc _).2 h⟩
      obtain ⟨x, hx⟩ := hx
      have : toPt x ∈ cs := hcsp.mem_iff.2 ((hkeys _).2 (List.mem_map_of_mem hx))
      rw [hnil] at this
      cases this
    · intro i p hp
      simp only at hp ⊢
      rw [hpts, flatMap_four _ _ hcs4] at hp
      rw [Option.bind_eq_some_iff] at hp
      obtain ⟨v, hv, hp⟩ := hp
      rw [hv]
      have : p ∈ micros m v := List.mem_of_getElem? hp
      rw [(m5 v p this).2]
    · intro c hc
      obtain ⟨l, hl1, hl2⟩ := hmic c (hcsp.mem_iff.1 hc)
      refine ⟨l, hl1, fun x => ?_⟩
      simp only
      rw [hptm]
      constructor
      · intro hx
        rw [← hl2] at hx
        exact ⟨hmn c x hx, (m5 c x hx).2⟩
      · rintro ⟨hx, rfl⟩
        rw [← hl2]
        exact (hround x hx).1
    · intro c hc
      exact (hkeys c).1 (hcsp.mem_iff.1 hc)
    · intro x hx
      simp only
      rcases macroNbrs_le hne m11 x with h1 | ⟨y, h1⟩
      · left; exact h1
      · right
        refine ⟨y, ?_, h1⟩
        have : y ∈ macroNbrs m x := by rw [h1]; simp
        rw [mem_macroNbrs hne] at this
        rw [hptm]
        rcases this with h2 | h2
        · exact (hends _ h2).2
        · exact (hends _ h2).1
    · intro x hx y hy
      simp only at hy ⊢
      rw [mem_macroNbrs hne] at hy ⊢
      exact hy.symm
    · intro i j hij
      simp only at hij ⊢
      rw [hent i j]
      simp only [Fin.getElem_fin] at hij ⊢
      rw [mem_macroNbrs hne] at hij
      have : EGraph.weight (macroEG m ws) pts[i.val] pts[j.val] = 0 := by
        apply weight_of_not_mem
        rintro ⟨w, h | h⟩
        · obtain ⟨k, hk, _⟩ := hzip h
          exact hij (Or.inl (List.mem_of_getElem? hk))
        · obtain ⟨k, hk, _⟩ := hzip h
          exact hij (Or.inr (List.mem_of_getElem? hk))
      rw [this]; norm_num
    · intro i j hij
      obtain ⟨e, he, -, -, h⟩ := hadj i j hij
      simp only
      rw [h]
      rcases hone he with h1 | h1 <;> rw [h1] <;> norm_num
  · intro c
    rw [hcsp.mem_iff, hkeys]
    constructor
    · intro h
      obtain ⟨x, hx, rfl⟩ := List.mem_map.1 h
      exact ⟨x, hx, rfl⟩
    · rintro ⟨x, hx, rfl⟩
      exact List.mem_map_of_mem hx
  · intro i j hij
    obtain ⟨e, he, h1, -, h2⟩ := hadj i j hij
    rcases h1 with ⟨h1, h3⟩ | ⟨h1, h3⟩
    · exact ⟨e.1, e.2.1, hedge he, h1, h3, h2⟩
    · refine ⟨e.2.1, e.1, by rw [Sym2.eq_swap]; exact hedge he, h1, h3, ?_⟩
      rw [show polarityOf code e.2.1 e.1 = polarityOf code e.1 e.2.1 by unfold polarityOf; rw [Sym2.eq_swap]]
      exact h2
  · intro x hx
    unfold Macro.around Macro.micros
    simp only
    have hnb : macroNbrs m = fun v => ((dirs m.edges).filter fun e => decide (e.1 = v)).map (·.2) := by
      funext v; exact macroNbrs_eq m hne v
    rw [hnb]
    have hnd : (pts.filter fun y => decide (roundPt y = toPt x)).Nodup := (a3.nodup_iff.2 m2).filter _
    refine ((flatMap_out _ hnd (dirs m.edges)).map roundPt).trans ?_
    -- filter by rounding
    have hdm : ∀ e ∈ dirs m.edges, e.1 ∈ m.nodes := by
      rintro ⟨u, v⟩ he
      rcases mem_dirs.1 he with h | h
      · exact (hends _ h).1
      · exact (hends _ h).2
    have e1 : ∀ f : Pt × Pt → Bool, (∀ e ∈ dirs m.edges, f e = true ↔ roundPt e.1 = toPt x) →
        (dirs m.edges).filter f = (dirs m.edges).filter fun e => decide (roundPt e.1 = toPt x) := by
      intro f hf
      apply List.filter_congr
      intro e he
      rw [Bool.eq_iff_iff, hf e he, decide_eq_true_eq]
    rw [e1 _ (by
      intro e he
      simp only [List.mem_filter, hptm, hdm e he, true_and, decide_eq_true_eq]), List.map_map]
    have e2 : ((dirs m.edges).filter fun e => decide (roundPt e.1 = toPt x)).map (roundPt ∘ (·.2)) =
        (((dirs m.edges).map fun e => (roundPt e.1, roundPt e.2)).filter fun e => decide (e.1 = toPt x)).map (·.2) := by
      rw [List.filter_map, List.map_map]
      rfl
    have e3 : ((dirs m.edges).map fun e => (roundPt e.1, roundPt e.2)) =
        (bothWays oriented).map fun e => (toPt e.1, toPt e.2.1) := by
      have key : ∀ (G : List (V × V × Bool)) (E : List (Pt × Pt)),
          List.Forall₂ (fun e f => f.1 ∈ micros m e.1 ∧ f.2 ∈ micros m e.2.1)
            (G.map fun e => (toPt e.1, toPt e.2.1, e.2.2)) E →
          ((dirs E).map fun e => (roundPt e.1, roundPt e.2)) = (bothWays G).map fun e => (toPt e.1, toPt e.2.1) := by
        intro G
        induction G with
        | nil => intro E h; cases h; rfl
        | cons g G ih =>
          intro E h
          rw [List.map_cons] at h
          cases h with
          | cons h1 h2 =>
            have := ih _ h2
            unfold dirs bothWays at this ⊢
            rw [List.flatMap_cons, List.flatMap_cons, List.map_append, List.map_append, this]
            simp [(m5 _ _ h1.1).2, (m5 _ _ h1.2).2]
      exact key oriented m.edges m7
    rw [e2, e3]
    have e4 : (((bothWays oriented).map fun e => (toPt e.1, toPt e.2.1)).filter fun e => decide (e.1 = toPt x)).map (·.2) =
        (((bothWays oriented).filter fun e => decide (e.1 = x)).map fun e => e.2.1).map toPt := by
      rw [List.filter_map, List.map_map, List.map_map]
      congr 1
      apply List.filter_congr
      intro e _
      simp [toPt_inj.eq_iff]
    rw [e4]
    apply List.Perm.map
    have hbw := bothWays_nodup hd hc ho
    rw [List.perm_ext_iff_of_nodup]
    · intro y
      unfold neighbors
      rw [List.mem_map, List.mem_filter, decide_eq_true_eq]
      constructor
      · rintro ⟨e, he, rfl⟩
        rw [List.mem_filter, decide_eq_true_eq] at he
        obtain ⟨he, rfl⟩ := he
        obtain ⟨h1, h2, h3, _⟩ := mem_bothWays hd hc ho he
        refine ⟨(code_nodes hd hc _).2 h2, ?_⟩
        rw [hgr]
        exact (C22_edges (goodDims_of_two hd _) pol (o.perm 0 _) _ _).2 ⟨h1, h2, h3⟩
      · rintro ⟨_, hk⟩
        obtain ⟨f, hf, hfe⟩ := List.mem_map.1 hk
        have hm : (f.1, f.2.2) ∈ oriented.map fun e => (s(e.1, e.2.1), e.2.2) :=
          ho.mem_iff.2 (List.mem_map_of_mem (f := fun e : Sym2 V × ℤ × Bool => (e.1, e.2.2)) hf)
        obtain ⟨g, hg, hge⟩ := List.mem_map.1 hm
        simp only [Prod.mk.injEq] at hge
        rw [hfe, Sym2.eq_iff] at hge
        rcases hge.1 with ⟨h1, h2⟩ | ⟨h1, h2⟩
        · refine ⟨(g.1, g.2.1, g.2.2), ?_, h2⟩
          rw [List.mem_filter, decide_eq_true_eq]
          exact ⟨List.mem_flatMap.2 ⟨g, hg, by simp⟩, h1⟩
        · refine ⟨(g.2.1, g.1, g.2.2), ?_, h1⟩
          rw [List.mem_filter, decide_eq_true_eq]
          exact ⟨List.mem_flatMap.2 ⟨g, hg, by simp⟩, h2⟩
    · rw [List.nodup_map_iff_inj_on ((List.Nodup.of_map _ hbw).filter _)]
      intro e he f hf hef
      rw [List.mem_filter, decide_eq_true_eq] at he hf
      refine (List.nodup_map_iff_inj_on (List.Nodup.of_map _ hbw)).1 hbw e he.1 f hf.1 ?_
      rw [he.2, hf.2, hef]
    · have hnn : (PyDict.keys code.graph.nodes).Nodup := by
        rw [hgr]; exact (rhgGraph_built _ _ _ _).nodesNd
      exact hnn.filter _

end

end Flamingpy.Noise
