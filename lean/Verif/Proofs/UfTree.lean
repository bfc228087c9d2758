import Verif.Proofs.UfHist

/-! # Cluster trees built with `Root`, `add_child`, `union`, `find_root` and `parity` -/

namespace Flamingpy.UnionFind

open Flamingpy

variable {N : Type} [DecidableEq N]

theorem findRoot_size (h : Heap N) (sz : N → ℕ) (v : N) :
    findRoot ⟨h.nodes, h.parent, h.children, sz, h.parity, h.boundary⟩ v =
      (findRoot h v).map fun r => (⟨r.1.nodes, r.1.parent, r.1.children, sz, r.1.parity, r.1.boundary⟩, r.2) := by
  unfold findRoot
  simp only [Option.bind_eq_bind]
  cases climb h.parent v h.nodes.length v [] h.children with
  | none => rfl
  | some r => rcases r with ⟨ch, _ | ⟨top, trav⟩⟩ <;> rfl

theorem HInv.findRoot_fresh {ns : List N} {p : N → Option Bool} {h : Heap N} {rep : N → N} {dep : N → ℕ}
    (H : HInv ns p h rep dep) {v : N} (hv : v ∈ ns) {h' : Heap N} {r : Option N} (he : UnionFind.findRoot h v = some (h', r))
    {x : N} (hx : x ∉ ns) : h'.parent x = h.parent x := by
  have hfuel : dep v < h.nodes.length :=
    lt_of_lt_of_le (H.dep_lt v hv) (List.countP_le_length.trans H.len)
  obtain ⟨ch, trav, h1, h2, h3⟩ := H.climb (self := v) h.nodes.length v [] h.children hv hfuel le_rfl
    (by simp) (by simp)
  simp only [UnionFind.findRoot, h1, Option.bind_eq_bind, Option.bind_some, Option.pure_def, Option.some.injEq,
    Prod.mk.injEq] at he
  obtain ⟨rfl, _⟩ := he
  simp only
  rw [foldl_update_parent, if_neg]
  intro hm
  exact hx (h2 x hm).1

/-- A new node put below a node of a cluster. -/
theorem HInv.addChild {ns : List N} {p : N → Option Bool} {h : Heap N} {rep : N → N} {dep : N → ℕ}
    (H : HInv ns p h rep dep) {u v : N} (hu : u ∈ ns) (hv : v ∉ ns) (hp : p v = some false)
    (hlen : ns.length < h.nodes.length) :
    ∃ h', UnionFind.addChild h u v = some h' ∧ h'.nodes = h.nodes ∧ (∀ x, x ∉ ns → x ≠ v → h'.parent x = h.parent x) ∧
      HInv (ns ++ [v]) p h' (Function.update rep v (rep u)) (Function.update dep v (dep u + 1)) := by
  have hne : ∀ x ∈ ns, x ≠ v := fun x hx e => hv (e ▸ hx)
  have hrep : ∀ x ∈ ns, Function.update rep v (rep u) x = rep x := fun x hx => Function.update_of_ne (hne x hx) _ _
  have hdep : ∀ x ∈ ns, Function.update dep v (dep u + 1) x = dep x := fun x hx => Function.update_of_ne (hne x hx) _ _
  have hrne : ∀ x ∈ ns, rep x ≠ v := fun x hx => hne _ (H.rep_mem x hx)
  have hcnt : ∀ (r : N) (f : N → Bool),
      ((ns ++ [v]).countP fun x => decide (Function.update rep v (rep u) x = r ∧ f x = true)) =
        (ns.countP fun x => decide (rep x = r ∧ f x = true)) + if rep u = r ∧ f v = true then 1 else 0 := by
    intro r f
    rw [List.countP_append, List.countP_singleton]
    congr 1
    · apply List.countP_congr
      intro x hx
      simp only [hrep x hx]
    · simp only [decide_eq_true_eq, Function.update_self]
  have hcnt1 : ∀ (r : N), ((ns ++ [v]).countP fun x => decide (Function.update rep v (rep u) x = r)) =
        (ns.countP fun x => decide (rep x = r)) + if rep u = r then 1 else 0 := by
    intro r
    simpa using hcnt r fun _ => true
  have hcnt2 : ∀ (r : N),
      ((ns ++ [v]).countP fun x => decide (Function.update rep v (rep u) x = r ∧ p x = some true)) =
        ns.countP fun x => decide (rep x = r ∧ p x = some true) := by
    intro r
    have := hcnt r fun x => decide (p x = some true)
    simpa [hp] using this
  have hmem : ∀ x, x ∈ ns ++ [v] ↔ x ∈ ns ∨ x = v := by simp
  have H0 : HInv (ns ++ [v]) p ⟨h.nodes, Function.update h.parent v (some u),
      Function.update h.children u (insert v (h.children u)), Function.update h.size (rep u) (h.size (rep u) + 1),
      h.parity, h.boundary⟩ (Function.update rep v (rep u)) (Function.update dep v (dep u + 1)) := by
    refine ⟨?_, ?_, ?_, ?_, ?_, ?_, ?_, ?_, ?_, ?_, ?_, ?_⟩
    · intro x hx
      rcases (hmem x).1 hx with hx | rfl
      · rw [hrep x hx]; exact (hmem _).2 (Or.inl (H.rep_mem x hx))
      · rw [Function.update_self]; exact (hmem _).2 (Or.inl (H.rep_mem u hu))
    · intro x hx
      rcases (hmem x).1 hx with hx | rfl
      · rw [hrep x hx, hrep _ (H.rep_mem x hx), H.rep_rep x hx]
      · rw [Function.update_self, hrep _ (H.rep_mem u hu), H.rep_rep u hu]
    · intro x hx
      simp only
      rcases (hmem x).1 hx with hx | rfl
      · rw [Function.update_of_ne (hne x hx), hrep x hx]; exact H.root_iff x hx
      · rw [Function.update_self, Function.update_self]
        exact ⟨fun e => absurd e (by simp), fun e => absurd e (hrne u hu)⟩
    · intro x hx
      rcases (hmem x).1 hx with hx | rfl
      · rw [hrep x hx, hdep _ (H.rep_mem x hx)]; exact H.dep_root x hx
      · rw [Function.update_self, hdep _ (H.rep_mem u hu)]; exact H.dep_root u hu
    · intro x hx q hq
      simp only at hq ⊢
      rcases (hmem x).1 hx with hx | rfl
      · rw [Function.update_of_ne (hne x hx)] at hq
        obtain ⟨a, b, c, d⟩ := H.par x hx q hq
        refine ⟨(hmem q).2 (Or.inl a), by rw [hrep q a, hrep x hx, b], by rw [hdep q a, hdep x hx]; exact c, ?_⟩
        by_cases hqu : q = u
        · subst hqu; rw [Function.update_self]; exact Finset.mem_insert_of_mem d
        · rw [Function.update_of_ne hqu]; exact d
      · rw [Function.update_self] at hq
        obtain rfl := Option.some.inj hq
        refine ⟨(hmem _).2 (Or.inl hu), by rw [hrep _ hu, Function.update_self], ?_, by simp⟩
        rw [hdep _ hu, Function.update_self]
        omega
    · intro x hx
      rw [hcnt1]
      rcases (hmem x).1 hx with hx | rfl
      · rw [hrep x hx, hdep x hx]
        have := H.dep_lt x hx
        omega
      · rw [Function.update_self, Function.update_self, if_pos rfl]
        have := H.dep_lt u hu
        omega
    · intro q c hc
      simp only at hc ⊢
      have hold : c ∈ h.children q → q ∈ ns ++ [v] ∧ c ∈ ns ++ [v] ∧ Function.update h.parent v (some u) c = some q := by
        intro hc
        obtain ⟨a, b, d⟩ := H.child q c hc
        exact ⟨(hmem q).2 (Or.inl a), (hmem c).2 (Or.inl b), by rw [Function.update_of_ne (hne c b), d]⟩
      by_cases hqu : q = u
      · subst hqu
        rw [Function.update_self, Finset.mem_insert] at hc
        rcases hc with rfl | hc
        · exact ⟨(hmem q).2 (Or.inl hu), by simp, by rw [Function.update_self]⟩
        · exact hold hc
      · rw [Function.update_of_ne hqu] at hc
        exact hold hc
    · intro x hx
      simp only
      rw [hcnt1]
      have key : ∀ y ∈ ns, Function.update h.size (rep u) (h.size (rep u) + 1) (rep y) =
          (ns.countP fun x => decide (rep x = rep y)) + if rep u = rep y then 1 else 0 := by
        intro y hy
        by_cases e : rep y = rep u
        · rw [e, Function.update_self, if_pos rfl, H.size u hu]
        · rw [Function.update_of_ne e, if_neg (fun h => e h.symm), H.size y hy]; rfl
      rcases (hmem x).1 hx with hx | rfl
      · rw [hrep x hx]; exact key x hx
      · rw [Function.update_self]; exact key u hu
    · intro x hx
      simp only
      rw [hcnt2]
      rcases (hmem x).1 hx with hx | rfl
      · rw [hrep x hx]; exact H.parity x hx
      · rw [Function.update_self]; exact H.parity u hu
    · intro x hx hb y hy he
      simp only at hb
      have key : ∀ z ∈ ns, h.boundary (rep z) = none → Function.update rep v (rep u) y = rep z → p y ≠ none := by
        intro z hz hb he
        rcases (hmem y).1 hy with hy | rfl
        · rw [hrep y hy] at he
          exact H.bnone z hz hb y hy he
        · rw [hp]; simp
      rcases (hmem x).1 hx with hx | rfl
      · rw [hrep x hx] at hb he; exact key x hx hb he
      · rw [Function.update_self] at hb he; exact key u hu hb he
    · intro x hx b hb
      simp only at hb
      have key : ∀ z ∈ ns, h.boundary (rep z) = some b → b ∈ ns ++ [v] ∧ Function.update rep v (rep u) b = rep z ∧ p b = none := by
        intro z hz hb
        obtain ⟨h1, h2, h3⟩ := H.bsome z hz b hb
        exact ⟨(hmem b).2 (Or.inl h1), by rw [hrep b h1, h2], h3⟩
      rcases (hmem x).1 hx with hx | rfl
      · rw [hrep x hx] at hb ⊢; exact key x hx hb
      · rw [Function.update_self] at hb ⊢; exact key u hu hb
    · simp only [List.length_append, List.length_singleton]
      exact hlen
  obtain ⟨h1, e1, H1, hn1, hs1, _⟩ := H0.findRoot ((hmem u).2 (Or.inl hu))
  have e0 := findRoot_size ⟨h.nodes, Function.update h.parent v (some u),
      Function.update h.children u (insert v (h.children u)), h.size, h.parity, h.boundary⟩
      (Function.update h.size (rep u) (h.size (rep u) + 1)) u
  have e0' := findRoot_size ⟨h.nodes, Function.update h.parent v (some u),
      Function.update h.children u (insert v (h.children u)), Function.update h.size (rep u) (h.size (rep u) + 1),
      h.parity, h.boundary⟩ h.size u
  simp only at e0 e0'
  rw [e1] at e0'
  refine ⟨h1, ?_, hn1, fun x hx hxv => ?_, H1⟩
  · unfold UnionFind.addChild
    simp only [Option.bind_eq_bind]
    rw [e0']
    simp only [Option.map_some, Option.bind_some, Option.pure_def, hrep u hu]
    simp only at hs1
    rw [← hs1]
  · rw [H0.findRoot_fresh ((hmem u).2 (Or.inl hu)) e1 (fun hm => by
      rcases (hmem x).1 hm with h | h
      · exact hx h
      · exact hxv h)]
    simp only
    rw [Function.update_of_ne hxv]

/-- Calls on the classes of the cluster trees. -/
inductive Act (N : Type) where
  /-- `Root(v, p)`; `none` is the parity "boundary" -/
  | root (v : N) (p : Option Bool)
  /-- `u.add_child(v)` -/
  | child (u v : N)
  /-- `v.find_root()` -/
  | find (v : N)
  /-- `v.parity()` -/
  | par (v : N)
  /-- `union(u.find_root(), v.find_root())` -/
  | join (u v : N)

/-- The effect of a call. -/
def Act.run (h : Heap N) : Act N → Option (Heap N)
  | .root v p => some (mkRoot h v p)
  | .child u v => addChild h u v
  | .find v => (findRoot h v).map (·.1)
  | .par v => (nodeParity h v).map (·.1)
  | .join u v => Op.run h (.join u v)

/-- The node that a call puts in a cluster. -/
def Act.adds : Act N → List N
  | .root v _ => [v]
  | .child _ v => [v]
  | _ => []

/-- The nodes that a call needs in a cluster. -/
def Act.needs : Act N → List N
  | .root _ _ => []
  | .child u _ => [u]
  | .find v => [v]
  | .par v => [v]
  | .join u v => [u, v]

/-- Every call adds a new node of `ns` only, and uses nodes that are in a cluster already. -/
def Legal (ns : List N) : List N → List (Act N) → Prop
  | _, [] => True
  | live, a :: as => (∀ v ∈ a.adds, v ∈ ns ∧ v ∉ live) ∧ (∀ v ∈ a.needs, v ∈ live) ∧ Legal ns (live ++ a.adds) as

/-- The pairs of nodes joined by the calls. -/
def actPairs (as : List (Act N)) : List (Sym2 N) := as.filterMap fun a => match a with
  | .child u v => some s(u, v)
  | .join u v => some s(u, v)
  | _ => none

theorem HInv.nodeParity {ns : List N} {p : N → Option Bool} {h : Heap N} {rep : N → N} {dep : N → ℕ}
    (H : HInv ns p h rep dep) {v : N} (hv : v ∈ ns) :
    ∃ h', UnionFind.nodeParity h v = some (h', some (h.parity (rep v))) ∧ HInv ns p h' rep dep ∧ h'.nodes = h.nodes ∧
      ∀ x, x ∉ ns → h'.parent x = h.parent x := by
  obtain ⟨h1, e1, H1, n1, _, p1, _⟩ := H.findRoot hv
  obtain ⟨h2, e2, H2, n2, _, p2, _⟩ := H1.findRoot hv
  refine ⟨h2, ?_, H2, n2.trans n1, fun x hx => ?_⟩
  · simp [UnionFind.nodeParity, e1, e2, p2, p1]
  · rw [H1.findRoot_fresh hv e2 hx, H.findRoot_fresh hv e1 hx]

/-- A node outside every cluster has no root. -/
theorem findRoot_new {h : Heap N} {v : N} (hv : v ∈ h.nodes) (hp : h.parent v = some v) :
    findRoot h v = some (h, none) ∧ nodeParity h v = some (h, none) := by
  have : findRoot h v = some (h, none) := by
    unfold findRoot
    obtain ⟨n, hn⟩ : ∃ n, h.nodes.length = n + 1 := ⟨h.nodes.length - 1, by have := List.length_pos_of_mem hv; omega⟩
    rw [hn]
    simp [climb, hp]
  exact ⟨this, by simp [nodeParity, this]⟩

/-- The partition after adding a node or joining. -/
theorem act_inv (ns : List N) (p : N → Option Bool) (as : List (Act N))
    (hroot : ∀ v q, Act.root v q ∈ as → p v = q) (hchild : ∀ u v, Act.child u v ∈ as → p v = some false) :
    ∀ (live : List N) (h : Heap N) (rep : N → N) (dep : N → ℕ) (done : List (Sym2 N)), Legal ns live as → live.Nodup →
      (∀ v ∈ live, v ∈ ns) → h.nodes = ns → (∀ v ∈ ns, v ∉ live → h.parent v = some v) → HInv live p h rep dep →
      (∀ e ∈ done, ∀ v ∈ e, v ∈ live) → (∀ u ∈ live, ∀ v ∈ live, rep u = rep v ↔ Conn done u v) →
      ∃ h' rep' dep', as.foldlM Act.run h = some h' ∧ h'.nodes = ns ∧ (live ++ as.flatMap Act.adds).Nodup ∧
        (∀ v ∈ ns, v ∉ live ++ as.flatMap Act.adds → h'.parent v = some v) ∧
        HInv (live ++ as.flatMap Act.adds) p h' rep' dep' ∧
        ∀ u ∈ live ++ as.flatMap Act.adds, ∀ v ∈ live ++ as.flatMap Act.adds,
          rep' u = rep' v ↔ Conn (actPairs as ++ done) u v := by
  induction as with
  | nil =>
    intro live h rep dep done _ hnd _ hn hf H _ hr
    exact ⟨h, rep, dep, rfl, hn, by simpa using hnd, by simpa using hf, by simpa using H, by simpa [actPairs] using hr⟩
  | cons a as ih =>
    intro live h rep dep done hleg hnd hsub hn hf H hdone hr
    obtain ⟨hadd, hneed, hleg'⟩ := hleg
    have ih' := ih (fun v q hm => hroot v q (List.mem_cons_of_mem _ hm)) (fun u v hm => hchild u v (List.mem_cons_of_mem _ hm))
    have step : ∀ (h1 : Heap N) (rep1 : N → N) (dep1 : N → ℕ) (ps : List (Sym2 N)), Act.run h a = some h1 →
        h1.nodes = ns → (∀ v ∈ ns, v ∉ live ++ a.adds → h1.parent v = some v) → HInv (live ++ a.adds) p h1 rep1 dep1 →
        (∀ e ∈ ps, ∀ v ∈ e, v ∈ live ++ a.adds) → actPairs (a :: as) = ps ++ actPairs as →
        (∀ u ∈ live ++ a.adds, ∀ v ∈ live ++ a.adds, rep1 u = rep1 v ↔ Conn (ps ++ done) u v) →
        ∃ h' rep' dep', (a :: as).foldlM Act.run h = some h' ∧ h'.nodes = ns ∧
          (live ++ (a :: as).flatMap Act.adds).Nodup ∧
          (∀ v ∈ ns, v ∉ live ++ (a :: as).flatMap Act.adds → h'.parent v = some v) ∧
          HInv (live ++ (a :: as).flatMap Act.adds) p h' rep' dep' ∧
          ∀ u ∈ live ++ (a :: as).flatMap Act.adds, ∀ v ∈ live ++ (a :: as).flatMap Act.adds,
            rep' u = rep' v ↔ Conn (actPairs (a :: as) ++ done) u v := by
      intro h1 rep1 dep1 ps e1 n1 f1 H1 hps hpairs r1
      have hnd1 : (live ++ a.adds).Nodup := by
        rw [List.nodup_append]
        refine ⟨hnd, by cases a <;> simp [Act.adds], ?_⟩
        rintro x hx y hy rfl
        exact (hadd x hy).2 hx
      obtain ⟨h', rep', dep', r2, r3, r4, r5, r6, r7⟩ := ih' (live ++ a.adds) h1 rep1 dep1 (ps ++ done) hleg' hnd1
        (fun v hv => by
          rcases List.mem_append.1 hv with hv | hv
          · exact hsub v hv
          · exact (hadd v hv).1) n1 f1 H1 (fun e he v hv => by
          rcases List.mem_append.1 he with he | he
          · exact hps e he v hv
          · exact List.mem_append_left _ (hdone e he v hv)) r1
      have eq : live ++ (a :: as).flatMap Act.adds = live ++ a.adds ++ as.flatMap Act.adds := by
        rw [List.flatMap_cons, List.append_assoc]
      refine ⟨h', rep', dep', ?_, r3, ?_, ?_, ?_, ?_⟩
      · rw [List.foldlM_cons, e1]; exact r2
      · rw [eq]; exact r4
      · rw [eq]; exact r5
      · rw [eq]; exact r6
      · rw [eq]
        intro u hu v hv
        rw [r7 u hu v hv, hpairs]
        constructor <;> intro hc <;> refine hc.mono fun x hx => ?_ <;> simp only [List.mem_append] at hx ⊢ <;> tauto
    have hlen : ∀ v, v ∈ ns → v ∉ live → live.length < h.nodes.length := by
      intro v h1 h2
      rw [hn]
      have : (v :: live).Subperm ns := List.Nodup.subperm (List.nodup_cons.2 ⟨h2, hnd⟩) (fun x hx => by
        rcases List.mem_cons.1 hx with rfl | hx
        · exact h1
        · exact hsub x hx)
      exact this.length_le
    cases a with
    | root v q =>
      obtain ⟨hv1, hv2⟩ := hadd v (by simp [Act.adds])
      have hq := hroot v q (by simp)
      have H1 := H.mkRoot hv2 (hlen v hv1 hv2)
      rw [hq] at H1
      refine step (mkRoot h v q) _ _ [] rfl hn (fun x hx hxl => ?_) H1 (by simp) rfl ?_
      · simp only [Act.adds, List.mem_append, List.mem_singleton, not_or] at hxl
        simp only [UnionFind.mkRoot]
        rw [Function.update_of_ne hxl.2]
        exact hf x hx hxl.1
      · have hlne : ∀ x ∈ live, x ≠ v := fun x hx e => hv2 (e ▸ hx)
        have hnew : ∀ x ∈ live, ¬ Conn done x v := by
          intro x hx hc
          rcases Relation.ReflTransGen.cases_tail hc with e | ⟨y, _, hy⟩
          · exact hv2 (e ▸ hx)
          · exact hv2 (hdone _ hy v (by simp))
        have hrne : ∀ x ∈ live, rep x ≠ v := fun x hx e => hv2 (e ▸ H.rep_mem x hx)
        intro x hx y hy
        rw [List.nil_append]
        simp only [Act.adds, List.mem_append, List.mem_singleton] at hx hy
        rcases hx with hx | rfl <;> rcases hy with hy | rfl
        · rw [Function.update_of_ne (hlne x hx), Function.update_of_ne (hlne y hy)]
          exact hr x hx y hy
        · rw [Function.update_of_ne (hlne x hx), Function.update_self]
          exact ⟨fun e => absurd e (hrne x hx), fun hc => absurd hc (hnew x hx)⟩
        · rw [Function.update_of_ne (hlne y hy), Function.update_self]
          exact ⟨fun e => absurd e.symm (hrne y hy), fun hc => absurd hc.symm (hnew y hy)⟩
        · exact ⟨fun _ => Conn.refl _ _, fun _ => rfl⟩
    | child u v =>
      obtain ⟨hv1, hv2⟩ := hadd v (by simp [Act.adds])
      have hu := hneed u (by simp [Act.needs])
      obtain ⟨h1, e1, n1, f1, H1⟩ := H.addChild hu hv2 (hchild u v (by simp)) (hlen v hv1 hv2)
      refine step h1 _ _ [s(u, v)] e1 (n1.trans hn) (fun x hx hxl => ?_) H1 (fun e he w hw => ?_) rfl ?_
      · simp only [Act.adds, List.mem_append, List.mem_singleton, not_or] at hxl
        rw [f1 x hxl.1 hxl.2]
        exact hf x hx hxl.1
      · rw [List.mem_singleton.1 he, Sym2.mem_iff] at hw
        simp only [Act.adds, List.mem_append, List.mem_singleton]
        rcases hw with rfl | rfl
        · exact Or.inl hu
        · exact Or.inr rfl
      · have hlne : ∀ x ∈ live, x ≠ v := fun x hx e => hv2 (e ▸ hx)
        have hnew : ∀ x ∈ live, ¬ Conn done x v := by
          intro x hx hc
          rcases Relation.ReflTransGen.cases_tail hc with e | ⟨y, _, hy⟩
          · exact hv2 (e ▸ hx)
          · exact hv2 (hdone _ hy v (by simp))
        have hmono : ∀ {x y}, Conn done x y → Conn ([s(u, v)] ++ done) x y :=
          fun h => h.mono fun _ h => List.mem_append_right _ h
        have hedge : Conn ([s(u, v)] ++ done) u v := Conn.edge (by simp)
        have hold : ∀ x ∈ live, ∀ y ∈ live, Conn ([s(u, v)] ++ done) x y → Conn done x y := by
          intro x hx y hy hc
          rcases Conn.cons hc with h | ⟨_, h2⟩ | ⟨h1, _⟩
          · exact h
          · exact absurd h2.symm (hnew y hy)
          · exact absurd h1 (hnew x hx)
        have hvx : ∀ x ∈ live, rep x = rep u ↔ Conn ([s(u, v)] ++ done) x v := by
          intro x hx
          rw [hr x hx u hu]
          refine ⟨fun hc => (hmono hc).trans hedge, fun hc => hold x hx u hu (hc.trans hedge.symm)⟩
        intro x hx y hy
        simp only [Act.adds, List.mem_append, List.mem_singleton] at hx hy
        rcases hx with hx | rfl <;> rcases hy with hy | rfl
        · rw [Function.update_of_ne (hlne x hx), Function.update_of_ne (hlne y hy), hr x hx y hy]
          exact ⟨hmono, hold x hx y hy⟩
        · rw [Function.update_of_ne (hlne x hx), Function.update_self]
          exact hvx x hx
        · rw [Function.update_of_ne (hlne y hy), Function.update_self]
          rw [eq_comm, hvx y hy]
          exact ⟨fun hc => hc.symm, fun hc => hc.symm⟩
        · exact ⟨fun _ => Conn.refl _ _, fun _ => rfl⟩
    | find v =>
      have hv := hneed v (by simp [Act.needs])
      obtain ⟨h1, e1, H1, n1, _⟩ := H.findRoot hv
      refine step h1 rep dep [] (by simp [Act.run, e1]) (n1.trans hn) (fun x hx hxl => ?_) (by simpa [Act.adds] using H1)
        (by simp) rfl (by simpa [Act.adds] using hr)
      have hxl' : x ∉ live := by simpa [Act.adds] using hxl
      rw [H.findRoot_fresh hv e1 hxl']
      exact hf x hx hxl'
    | par v =>
      have hv := hneed v (by simp [Act.needs])
      obtain ⟨h1, e1, H1, n1, f1⟩ := H.nodeParity hv
      refine step h1 rep dep [] (by simp [Act.run, e1]) (n1.trans hn) (fun x hx hxl => ?_) (by simpa [Act.adds] using H1)
        (by simp) rfl (by simpa [Act.adds] using hr)
      have hxl' : x ∉ live := by simpa [Act.adds] using hxl
      rw [f1 x hxl']
      exact hf x hx hxl'
    | join u v =>
      have hu := hneed u (by simp [Act.needs])
      have hv := hneed v (by simp [Act.needs])
      obtain ⟨h1, rep1, dep1, e1, H1, hr1⟩ := hist_inv live p [Op.join u v] (by simp [Op.nodes, hu, hv]) h rep dep H done hr
      have e1' : Op.run h (.join u v) = some h1 := by simpa using e1
      have hkeep : h1.nodes = h.nodes ∧ ∀ x, x ∉ live → h1.parent x = h.parent x := by
        obtain ⟨k1, c1, K1, m1, _⟩ := H.findRoot hu
        obtain ⟨k2, c2, K2, m2, _⟩ := K1.findRoot hv
        simp only [Op.run, c1, c2, Option.bind_eq_bind, Option.bind_some, Option.pure_def, Option.some.injEq] at e1'
        subst e1'
        have hk : ∀ x, x ∉ live → k2.parent x = h.parent x := fun x hx => by
          rw [K1.findRoot_fresh hv c2 hx, H.findRoot_fresh hu c1 hx]
        by_cases hab : rep u = rep v
        · have : (UnionFind.union k2 (rep u) (rep v)).1 = k2 := by
            unfold UnionFind.union; rw [if_neg (by simpa using hab)]
          rw [this]
          exact ⟨m2.trans m1, hk⟩
        · obtain ⟨big, small, h3, e3, n3, hcase, hpar, _, _, _⟩ := K2.union (H.rep_mem u hu) (H.rep_mem v hv)
            (H.rep_rep u hu) (H.rep_rep v hv) hab
          rw [e3]
          refine ⟨n3.trans (m2.trans m1), fun x hx => ?_⟩
          simp only
          rw [hpar, Function.update_of_ne, hk x hx]
          rintro rfl
          rcases hcase with ⟨_, rfl, _⟩ | ⟨_, rfl, _⟩
          · exact hx (H.rep_mem v hv)
          · exact hx (H.rep_mem u hu)
      refine step h1 rep1 dep1 [s(u, v)] e1' (hkeep.1.trans hn) (fun x hx hxl => ?_) (by simpa [Act.adds] using H1)
        (fun e he w hw => ?_) rfl ?_
      · have hxl' : x ∉ live := by simpa [Act.adds] using hxl
        rw [hkeep.2 x hxl']
        exact hf x hx hxl'
      · rw [List.mem_singleton.1 he, Sym2.mem_iff] at hw
        simp only [Act.adds, List.append_nil]
        rcases hw with rfl | rfl
        · exact hu
        · exact hv
      · simpa [Act.adds, joins] using hr1

end Flamingpy.UnionFind
