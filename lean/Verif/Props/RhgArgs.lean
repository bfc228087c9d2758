import Verif.Model.RhgArgs
import Verif.Props.Rhg
import Verif.Props.SurfaceCode

/-!
# C88: the arguments of `RHG_graph`

Sizes may be an integer or three integers; boundaries a documented name or a NumPy array of three types.  A Python list of three
types, which the docstring offers as well, always raises.
-/

namespace Flamingpy.SurfaceCode

open Flamingpy

/-- Specification: the documented names of boundaries, codes/surface_code.py:136-146. -/
inductive NamedBounds : String → Bd → Bd → Bd → Prop
  | open_primal : NamedBounds "open_primal" .primal .dual .primal
  | open_dual : NamedBounds "open_dual" .primal .dual .dual
  | primal : NamedBounds "primal" .primal .primal .primal
  | dual : NamedBounds "dual" .dual .dual .dual
  | periodic : NamedBounds "periodic" .periodic .periodic .periodic
  | periodic_primal : NamedBounds "periodic_primal" .periodic .periodic .primal
  | periodic_dual : NamedBounds "periodic_dual" .periodic .periodic .dual

/-- Specification: the name of a boundary type. -/
def Bd.name : Bd → String
  | .primal => "primal"
  | .dual => "dual"
  | .periodic => "periodic"

/-- Specification: sizes as documented: a number of any integer type that Python calls `int`, or three numbers. -/
inductive DocDims : DimsArg → (Fin 3 → ℤ) → Prop
  | int (n : ℤ) : DocDims (.int n) fun _ => n
  | seq (x y z : ℤ) : DocDims (.seq [x, y, z]) ![x, y, z]

/-- Specification: boundaries that work: a documented name, or an array of three types. -/
inductive DocBounds : BoundsArg → (Fin 3 → Bd) → Prop
  | str {s : String} {x y z : Bd} : NamedBounds s x y z → DocBounds (.str s) ![x, y, z]
  | array (x y z : Bd) : DocBounds (.array [x.name, y.name, z.name]) ![x, y, z]

theorem bdOf_name (x : Bd) : bdOf x.name = some x := by cases x <;> rfl

theorem bdOf_some {s : String} {x : Bd} (h : bdOf s = some x) : s = x.name := by
  unfold bdOf at h
  simp only [PyDict.get?, List.find?] at h
  by_cases h1 : "primal" = s
  · subst h1; cases h; rfl
  by_cases h2 : "dual" = s
  · subst h2; cases h; rfl
  by_cases h3 : "periodic" = s
  · subst h3; cases h; rfl
  simp [h1, h2, h3] at h

theorem mapM_bdOf {l : List String} {t : List Bd} : l.mapM bdOf = some t ↔ l = t.map Bd.name := by
  induction l generalizing t with
  | nil => cases t <;> simp
  | cons s l ih =>
    constructor
    · intro h
      simp only [List.mapM_cons, Option.bind_eq_bind, Option.bind_eq_some_iff, Option.pure_def, Option.some.injEq] at h
      obtain ⟨x, hx, t', ht', rfl⟩ := h
      rw [List.map_cons, bdOf_some hx, ih.1 ht']
    · intro h
      cases t with
      | nil => cases h
      | cons x t =>
        rw [List.map_cons, List.cons.injEq] at h
        rw [List.mapM_cons, h.1, bdOf_name, ih.2 h.2]
        rfl

theorem strToBound_named {s : String} {x y z : Bd} (h : NamedBounds s x y z) : strToBound s = some ![x, y, z] := by
  cases h <;> rfl

theorem named_of_strToBound {s : String} {t : Fin 3 → Bd} (h : strToBound s = some t) : NamedBounds s (t 0) (t 1) (t 2) := by
  have := ((C54_str_to_bound s t).2).1 (by rw [strToBoundArg, h])
  rcases this with ⟨rfl, rfl⟩ | ⟨rfl, rfl⟩ | ⟨rfl, rfl⟩ | ⟨rfl, rfl⟩ | ⟨rfl, rfl⟩ | ⟨rfl, rfl⟩ | ⟨rfl, rfl⟩
  · exact .open_primal
  · exact .open_dual
  · exact .primal
  · exact .dual
  · exact .periodic
  · exact .periodic_primal
  · exact .periodic_dual

theorem rhgDims_doc {d : DimsArg} {dims : Fin 3 → ℤ} : DocDims d dims ↔ rhgDims d = .ok dims := by
  constructor
  · intro h
    cases h with
    | int n => rfl
    | seq x y z =>
      change Except.ok (fun i : Fin 3 => [x, y, z].getD i.val 0) = _
      congr 1
      funext i
      fin_cases i <;> rfl
  · intro h
    cases d with
    | int n => cases h; exact .int n
    | npInt n => cases h
    | other => cases h
    | seq l =>
      unfold rhgDims at h
      simp only at h
      split_ifs at h with hl
      match l, hl with
      | [x, y, z], _ =>
        have : dims = ![x, y, z] := by
          cases h
          funext i
          fin_cases i <;> rfl
        rw [this]
        exact .seq x y z

/-- `rhgGraphArgs` once the sizes and boundaries are known. -/
def rhgCore (o : SetOrder) (dims : Fin 3 → ℤ) (bs : List Bd) (isArray : Bool) (pol : Option (V → V → ℤ)) : Except RhgErr RGraph :=
  let n : Fin 3 → ℕ := fun i => (dims i).toNat
  match bs with
  | [x, y, z] =>
    if isArray then pure (rhgGraph n ![x, y, z] pol (o.ord 0 (denested n ![x, y, z]))) else throw .attributeError
  | [x] =>
    if isArray then pure (rhgGraph n ![x, .primal, .primal] pol (o.ord 0 (denested n ![x, x, x]))) else throw .attributeError
  | _ => throw .valueError

theorem args_ok (o : SetOrder) {d : DimsArg} {dims : Fin 3 → ℤ} (hd : DocDims d dims) {b : BoundsArg} {bs : List Bd} {a : Bool}
    (hb : rhgBounds b = .ok (bs, a)) (pol : Option (V → V → ℤ)) : rhgGraphArgs o d b pol = rhgCore o dims bs a pol := by
  unfold rhgGraphArgs
  rw [rhgDims_doc.1 hd, hb]
  rfl

theorem args_err (o : SetOrder) {d : DimsArg} {dims : Fin 3 → ℤ} (hd : DocDims d dims) {b : BoundsArg} {e : RhgErr}
    (hb : rhgBounds b = .error e) (pol : Option (V → V → ℤ)) : rhgGraphArgs o d b pol = .error e := by
  unfold rhgGraphArgs
  rw [rhgDims_doc.1 hd, hb]
  rfl

theorem bounds_str_some {s : String} {t : Fin 3 → Bd} (h : strToBound s = some t) : rhgBounds (.str s) = .ok ([t 0, t 1, t 2], true) := by
  simp only [rhgBounds, h]

theorem bounds_str_none {s : String} (h : strToBound s = none) : rhgBounds (.str s) = .error .typeError := by
  simp only [rhgBounds, h]

theorem bounds_array (t : List Bd) : rhgBounds (.array (t.map Bd.name)) = .ok (t, true) := by
  simp only [rhgBounds, mapM_bdOf.2 rfl]

theorem bounds_list (t : List Bd) : rhgBounds (.list (t.map Bd.name)) = .ok (t, false) := by
  simp only [rhgBounds, mapM_bdOf.2 rfl]

theorem bounds_array_none {l : List String} (h : l.mapM bdOf = none) : rhgBounds (.array l) = .error .keyError := by
  simp only [rhgBounds, h]

theorem bounds_list_none {l : List String} (h : l.mapM bdOf = none) : rhgBounds (.list l) = .error .keyError := by
  simp only [rhgBounds, h]

/-- The graph for three boundary types. -/
theorem rhgGraphArgs_doc (o : SetOrder) {d : DimsArg} {dims : Fin 3 → ℤ} (hd : DocDims d dims) {b : BoundsArg} {bds : Fin 3 → Bd}
    (hb : DocBounds b bds) (pol : Option (V → V → ℤ)) : rhgGraphArgs o d b pol =
      .ok (rhgGraph (fun i => (dims i).toNat) bds pol (o.ord 0 (denested (fun i => (dims i).toNat) bds))) := by
  cases hb with
  | str h => exact args_ok o hd (bounds_str_some (strToBound_named h)) pol
  | array x y z => exact args_ok o hd (bounds_array [x, y, z]) pol

/-- C88 (1).  With sizes and boundaries as documented (an array of types in place of the list) `RHG_graph` returns the lattice of these sizes
and boundaries. -/
theorem C88_lattice (o : SetOrder) {d : DimsArg} {dims : Fin 3 → ℕ} (hd : DocDims d fun i => (dims i : ℤ)) {b : BoundsArg} {bds : Fin 3 → Bd}
    (hb : DocBounds b bds) (pol : Option (V → V → ℤ)) (hg : goodDims dims bds) : ∃ G, rhgGraphArgs o d b pol = .ok G ∧
      (∀ x, x ∈ PyDict.keys G.nodes ↔ isNode dims bds x) ∧
      ∀ x y, s(x, y) ∈ PyDict.keys G.edges ↔ isNode dims bds x ∧ isNode dims bds y ∧ adjacent dims bds x y := by
  have h := rhgGraphArgs_doc o hd hb pol
  simp only [Int.toNat_natCast] at h
  exact ⟨_, h, C22_nodes hg pol (o.perm _ _), C22_edges hg pol (o.perm _ _)⟩

/-- C88 (2).  Exactly these calls succeed, and those with an array of a single type. -/
theorem C88_accepts (o : SetOrder) (d : DimsArg) (b : BoundsArg) (pol : Option (V → V → ℤ)) :
    (∃ G, rhgGraphArgs o d b pol = .ok G) ↔ (∃ dims, DocDims d dims) ∧ ((∃ bds, DocBounds b bds) ∨ ∃ x : Bd, b = .array [x.name]) := by
  constructor
  · rintro ⟨G, h⟩
    cases hd : rhgDims d with
    | error e => unfold rhgGraphArgs at h; rw [hd] at h; cases h
    | ok dims =>
      have hd := rhgDims_doc.2 hd
      refine ⟨⟨dims, hd⟩, ?_⟩
      cases b with
      | other => rw [args_err o hd (e := .typeError) rfl] at h; cases h
      | str s =>
        cases hs : strToBound s with
        | none => rw [args_err o hd (bounds_str_none hs)] at h; cases h
        | some t => exact Or.inl ⟨_, .str (named_of_strToBound hs)⟩
      | list l =>
        exfalso
        cases hl : l.mapM bdOf with
        | none => rw [args_err o hd (bounds_list_none hl)] at h; cases h
        | some t =>
          rw [mapM_bdOf.1 hl, args_ok o hd (bounds_list t)] at h
          match t with
          | [] => cases h
          | [x] => cases h
          | [x, y] => cases h
          | [x, y, z] => cases h
          | x :: y :: z :: w :: t => cases h
      | array l =>
        cases hl : l.mapM bdOf with
        | none => rw [args_err o hd (bounds_array_none hl)] at h; cases h
        | some t =>
          have e := mapM_bdOf.1 hl
          rw [e, args_ok o hd (bounds_array t)] at h
          match t, e with
          | [], _ => cases h
          | [x], e => exact Or.inr ⟨x, by rw [e]; rfl⟩
          | [x, y], _ => cases h
          | [x, y, z], e => exact Or.inl ⟨![x, y, z], by rw [e]; exact .array x y z⟩
          | x :: y :: z :: w :: t, _ => cases h
  · rintro ⟨⟨dims, hd⟩, ⟨bds, hb⟩ | ⟨x, rfl⟩⟩
    · exact ⟨_, rhgGraphArgs_doc o hd hb pol⟩
    · exact ⟨_, args_ok o hd (bounds_array [x]) pol⟩

/-- C88 (3).  A list of three types raises an AttributeError, although it is documented. -/
theorem C88_list (o : SetOrder) {d : DimsArg} {dims : Fin 3 → ℤ} (hd : DocDims d dims) (x y z : Bd) (pol : Option (V → V → ℤ)) :
    rhgGraphArgs o d (.list [x.name, y.name, z.name]) pol = .error .attributeError := by
  exact args_ok o hd (bounds_list [x, y, z]) pol

/-- C88 (4).  What the other calls raise: for sizes of another type (a NumPy integer, for instance) a TypeError, for a wrong number of sizes a
ValueError; then, for an unknown name of the boundaries a TypeError, for an unknown type a KeyError, for a wrong number of types a ValueError. -/
theorem C88_rejects (o : SetOrder) (pol : Option (V → V → ℤ)) :
    (∀ b n, rhgGraphArgs o (.npInt n) b pol = .error .typeError) ∧ (∀ b, rhgGraphArgs o .other b pol = .error .typeError) ∧
    (∀ b l, l.length ≠ 3 → rhgGraphArgs o (.seq l) b pol = .error .valueError) ∧
    ∀ d dims, DocDims d dims → rhgGraphArgs o d .other pol = .error .typeError ∧
      (∀ s, (∀ x y z, ¬NamedBounds s x y z) → rhgGraphArgs o d (.str s) pol = .error .typeError) ∧
      ∀ b l, b = .array l ∨ b = .list l →
        ((∃ s ∈ l, s ≠ "primal" ∧ s ≠ "dual" ∧ s ≠ "periodic") → rhgGraphArgs o d b pol = .error .keyError) ∧
        ((∀ s ∈ l, s = "primal" ∨ s = "dual" ∨ s = "periodic") → l.length ≠ 1 → l.length ≠ 3 → rhgGraphArgs o d b pol = .error .valueError) := by
  refine ⟨fun _ _ => rfl, fun _ => rfl, fun b l hl => ?_, fun d dims hd => ⟨?_, fun s hs => ?_, fun b l hb => ⟨?_, fun hl h1 h3 => ?_⟩⟩⟩
  · unfold rhgGraphArgs rhgDims
    simp only [if_neg hl]
    rfl
  · exact args_err o hd rfl pol
  · cases ht : strToBound s with
    | none => exact args_err o hd (bounds_str_none ht) pol
    | some t => exact absurd (named_of_strToBound ht) (hs _ _ _)
  · rintro ⟨s, hsl, n1, n2, n3⟩
    have hn : l.mapM bdOf = none := by
      cases ht : l.mapM bdOf with
      | none => rfl
      | some t =>
        rw [mapM_bdOf.1 ht, List.mem_map] at hsl
        obtain ⟨x, -, rfl⟩ := hsl
        cases x
        · exact absurd rfl n1
        · exact absurd rfl n2
        · exact absurd rfl n3
    rcases hb with rfl | rfl
    · exact args_err o hd (bounds_array_none hn) pol
    · exact args_err o hd (bounds_list_none hn) pol
  · obtain ⟨t, ht⟩ : ∃ t : List Bd, l = t.map Bd.name := by
      clear h1 h3 hb
      induction l with
      | nil => exact ⟨[], rfl⟩
      | cons s l ih =>
        obtain ⟨t, ht⟩ := ih fun s hs => hl s (by simp [hs])
        rcases hl s (by simp) with rfl | rfl | rfl
        · exact ⟨.primal :: t, by rw [ht]; rfl⟩
        · exact ⟨.dual :: t, by rw [ht]; rfl⟩
        · exact ⟨.periodic :: t, by rw [ht]; rfl⟩
    rw [ht, List.length_map] at h1 h3
    have hcore : ∀ a, rhgCore o dims t a pol = .error .valueError := by
      intro a
      match t, h1, h3 with
      | [], _, _ => rfl
      | [x], h1, _ => exact absurd rfl h1
      | [x, y], _, _ => rfl
      | [x, y, z], _, h3 => exact absurd rfl h3
      | x :: y :: z :: w :: t, _, _ => rfl
    rcases hb with rfl | rfl <;> rw [ht]
    · rw [args_ok o hd (bounds_array t), hcore]
    · rw [args_ok o hd (bounds_list t), hcore]

/-! ### Corner cases -/

/-- Sizes of axes that are neither dual nor periodic matter for the cubes only. -/
theorem rhgGraph_congr {n m : Fin 3 → ℕ} {bds : Fin 3 → Bd} (h : ∀ i, bds i ≠ .primal → n i = m i) (pol : Option (V → V → ℤ)) (verts : List V) :
    rhgGraph n bds pol verts = rhgGraph m bds pol verts := by
  have hbey : ∀ v, beyond n bds v = beyond m bds v := by
    intro v
    unfold beyond
    congr 1
    funext i
    by_cases hi : bds i = .primal
    · simp [hi]
    · rw [h i hi]
  have hper : ∀ v G, (zeroPeriodic bds v).foldl (periodicStep n pol v) G = (zeroPeriodic bds v).foldl (periodicStep m pol v) G := by
    intro v G
    refine List.foldl_ext _ _ _ fun G i hi => ?_
    unfold zeroPeriodic at hi
    rw [List.mem_filter, Bool.and_eq_true, decide_eq_true_eq, decide_eq_true_eq] at hi
    unfold periodicStep
    rw [h i (by rw [hi.2.2]; simp)]
  unfold rhgGraph
  congr 1
  funext G v
  unfold vertexStep
  rw [hbey]
  congr 1
  congr 1
  funext G w
  unfold neighborStep
  rw [hbey]
  simp only [hper]

/-- C88 (5).  An array with a single type is not what one may expect: `["dual"]` and `["periodic"]` give this boundary to the first axis only, and
primal boundaries, one unit longer, to the others. -/
theorem C88_single (o : SetOrder) {d : DimsArg} {dims : Fin 3 → ℕ} (hd : DocDims d fun i => (dims i : ℤ)) (x : Bd)
    (pol : Option (V → V → ℤ)) (h2 : ∀ i, 2 ≤ dims i) {dims' : Fin 3 → ℕ}
    (hd' : dims' = if x = .primal then dims else ![dims 0, dims 1 + 1, dims 2 + 1]) : ∃ G, rhgGraphArgs o d (.array [x.name]) pol = .ok G ∧
      (∀ p, p ∈ PyDict.keys G.nodes ↔ isNode dims' ![x, .primal, .primal] p) ∧
      ∀ p q, s(p, q) ∈ PyDict.keys G.edges ↔
        isNode dims' ![x, .primal, .primal] p ∧ isNode dims' ![x, .primal, .primal] q ∧ adjacent dims' ![x, .primal, .primal] p q := by
  have hden : denested dims ![x, x, x] = denested dims' ![x, .primal, .primal] := by
    unfold denested primalCubes
    congr 4
    funext i
    rw [hd']
    cases x <;> fin_cases i <;> simp
  have hcong : ∀ v, rhgGraph dims ![x, .primal, .primal] pol v = rhgGraph dims' ![x, .primal, .primal] pol v := by
    intro v
    refine rhgGraph_congr (fun i hi => ?_) pol v
    rw [hd']
    fin_cases i
    · simp only [Fin.zero_eta, Fin.isValue]
      split_ifs <;> rfl
    · simp at hi
    · simp at hi
  have hg : goodDims dims' ![x, .primal, .primal] := by
    intro i
    have := h2 i
    have h1 : dims i ≤ dims' i := by
      rw [hd']
      split_ifs
      · exact le_rfl
      · fin_cases i <;> simp
    exact ⟨by omega, fun _ => by omega⟩
  refine ⟨rhgGraph dims' ![x, .primal, .primal] pol (o.ord 0 (denested dims ![x, x, x])), ?_, ?_, ?_⟩
  · rw [show [x.name] = [x].map Bd.name from rfl, args_ok o hd (bounds_array [x]), ← hcong]
    rfl
  · rw [hden]; exact C22_nodes hg pol (o.perm _ _)
  · rw [hden]; exact C22_edges hg pol (o.perm _ _)

/-- C88 (6).  A size of at most 0, or 1 with primal boundaries, gives an empty graph instead of an error. -/
theorem C88_empty (o : SetOrder) {d : DimsArg} {dims : Fin 3 → ℤ} (hd : DocDims d dims) {b : BoundsArg} {bds : Fin 3 → Bd} (hb : DocBounds b bds)
    (pol : Option (V → V → ℤ)) (h : ∃ i, dims i ≤ 0 ∨ bds i = .primal ∧ dims i ≤ 1) : rhgGraphArgs o d b pol = .ok ⟨[], []⟩ := by
  rw [rhgGraphArgs_doc o hd hb pol]
  have hden : denested (fun i => (dims i).toNat) bds = [] := by
    unfold denested primalCubes
    have : product3 (fun _ => 0) (fun i => (((dims i).toNat : ℕ) : ℤ) - match bds i with
        | .primal => 1
        | .dual => 0
        | .periodic => 0) = [] := by
      obtain ⟨i, hi⟩ := h
      have hr : (((((dims i).toNat : ℕ) : ℤ) - match bds i with
        | .primal => 1
        | .dual => 0
        | .periodic => 0) - 0).toNat = 0 := by
        rcases hi with hi | ⟨hi, hi'⟩
        · cases bds i <;> simp only <;> omega
        · simp only [hi]; omega
      unfold product3
      simp only
      fin_cases i
      · simp only [Fin.zero_eta, Fin.isValue] at hr
        rw [hr]; simp
      · simp only [Fin.mk_one, Fin.isValue] at hr
        rw [hr]; simp
      · simp only [Fin.reduceFinMk, Fin.isValue] at hr
        rw [hr]; simp
    refine (congrArg (fun l : List (ℤ × ℤ × ℤ) => (l.map sixBody).flatten.dedup) this).trans ?_
    rfl
  rw [hden, (o.perm 0 []).eq_nil]
  rfl

-- the cases exist
example (o : SetOrder) : ∃ G, rhgGraphArgs o (.seq [2, 3, 4]) (.str "open_primal") none = .ok G ∧ ![0, 1, 1] ∈ PyDict.keys G.nodes := by
  obtain ⟨G, h1, h2, -⟩ := C88_lattice o (d := .seq [2, 3, 4]) (dims := ![2, 3, 4]) (by
    convert DocDims.seq 2 3 4 using 1
    funext i
    fin_cases i <;> rfl) (DocBounds.str .open_primal) none (by
    intro i
    fin_cases i <;> simp)
  refine ⟨G, h1, (h2 _).2 ⟨?_, Or.inl ?_⟩⟩
  · intro i
    fin_cases i <;> simp [inAxis]
  · rfl

end Flamingpy.SurfaceCode
