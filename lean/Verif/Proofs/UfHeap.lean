import Verif.Proofs.Peeling

/-! # Cluster trees: the invariant of `union` and `find_root` -/

namespace Flamingpy.UnionFind

open Flamingpy

variable {N : Type} [DecidableEq N]

/-- The cluster trees over the nodes `ns` represent the partition given by `rep`; `p` are the parities the roots
were made with. -/
structure HInv (ns : List N) (p : N → Option Bool) (h : Heap N) (rep : N → N) (dep : N → ℕ) : Prop where
  rep_mem : ∀ v ∈ ns, rep v ∈ ns
  rep_rep : ∀ v ∈ ns, rep (rep v) = rep v
  root_iff : ∀ v ∈ ns, h.parent v = none ↔ rep v = v
  dep_root : ∀ v ∈ ns, dep (rep v) = 0
  par : ∀ v ∈ ns, ∀ q, h.parent v = some q → q ∈ ns ∧ rep q = rep v ∧ dep q < dep v ∧ v ∈ h.children q
  dep_lt : ∀ v ∈ ns, dep v < ns.countP fun u => decide (rep u = rep v)
  child : ∀ q, ∀ c ∈ h.children q, q ∈ ns ∧ c ∈ ns ∧ h.parent c = some q
  size : ∀ v ∈ ns, h.size (rep v) = ns.countP fun u => decide (rep u = rep v)
  parity : ∀ v ∈ ns, h.parity (rep v) = decide ((ns.countP fun u => decide (rep u = rep v ∧ p u = some true)) % 2 = 1)
  bnone : ∀ v ∈ ns, h.boundary (rep v) = none → ∀ u ∈ ns, rep u = rep v → p u ≠ none
  bsome : ∀ v ∈ ns, ∀ b, h.boundary (rep v) = some b → b ∈ ns ∧ rep b = rep v ∧ p b = none
  len : ns.length ≤ h.nodes.length

theorem HInv.climb {ns : List N} {p : N → Option Bool} {h : Heap N} {rep : N → N} {dep : N → ℕ}
    (H : HInv ns p h rep dep) {self : N} (fuel : ℕ) :
    ∀ (node : N) (trav : List N) (ch : N → Finset N), node ∈ ns → dep node < fuel → dep node ≤ dep self →
    (∀ t ∈ trav, t ∈ ns ∧ rep t = rep node ∧ dep node < dep t) →
    (∀ c x, x ∈ ch c ↔ x ∈ h.children c ∧ x ∉ trav) →
    ∃ ch' trav', climb h.parent self fuel node trav ch = some (ch', some (rep node, trav')) ∧
      (∀ t ∈ trav', t ∈ ns ∧ rep t = rep node ∧ 0 < dep t) ∧
      (∀ c x, x ∈ ch' c ↔ x ∈ h.children c ∧ x ∉ trav') := by
  induction fuel with
  | zero => intro _ _ _ _ hd; omega
  | succ fuel ih =>
    intro node trav ch hn hd hds ht hch
    unfold UnionFind.climb
    cases hp : h.parent node with
    | none =>
      refine ⟨ch, trav, ?_, fun t htt => ?_, hch⟩
      · rw [(H.root_iff node hn).1 hp]
      · obtain ⟨h1, h2, h3⟩ := ht t htt
        exact ⟨h1, h2, by omega⟩
    | some q =>
      obtain ⟨h1, h2, h3, h4⟩ := H.par node hn q hp
      have hqs : q ≠ self := by rintro rfl; omega
      have hnt : node ∉ trav := fun hm => by
        have := (ht node hm).2.2
        omega
      have hmem : node ∈ ch q := (hch q node).2 ⟨h4, hnt⟩
      simp only [if_neg hqs, if_pos hmem]
      rw [← h2]
      apply ih q (node :: trav) _ h1 (by omega) (by omega)
      · intro t htt
        rcases List.mem_cons.1 htt with rfl | htt
        · exact ⟨hn, h2.symm, h3⟩
        · obtain ⟨a, b, c⟩ := ht t htt
          exact ⟨a, b.trans h2.symm, by omega⟩
      · intro c x
        rw [List.mem_cons, not_or]
        by_cases hc : c = q
        · subst hc
          rw [Function.update_self, Finset.mem_erase, hch]
          tauto
        · rw [Function.update_of_ne hc, hch]
          refine ⟨fun h => ⟨h.1, ?_, h.2⟩, fun h => ⟨h.1, h.2.2⟩⟩
          rintro rfl
          have := (H.child c x h.1).2.2
          rw [hp] at this
          exact hc (Option.some.inj this).symm

theorem foldl_update_parent (trav : List N) (par : N → Option N) (top v : N) :
    trav.foldl (fun par t => Function.update par t (some top)) par v = if v ∈ trav then some top else par v := by
  induction trav generalizing par with
  | nil => simp
  | cons t trav ih =>
    rw [List.foldl_cons, ih]
    by_cases h1 : v ∈ trav
    · simp [h1]
    · by_cases h2 : v = t
      · subst h2; simp
      · simp [h1, h2]

/-- `find_root` returns the representative and keeps the partition. -/
theorem HInv.findRoot {ns : List N} {p : N → Option Bool} {h : Heap N} {rep : N → N} {dep : N → ℕ}
    (H : HInv ns p h rep dep) {v : N} (hv : v ∈ ns) :
    ∃ h', findRoot h v = some (h', some (rep v)) ∧ HInv ns p h' rep dep ∧ h'.nodes = h.nodes ∧ h'.size = h.size ∧
      h'.parity = h.parity ∧ h'.boundary = h.boundary := by
  have hfuel : dep v < h.nodes.length :=
    lt_of_lt_of_le (H.dep_lt v hv) (List.countP_le_length.trans H.len)
  obtain ⟨ch, trav, h1, h2, h3⟩ := H.climb (self := v) h.nodes.length v [] h.children hv hfuel le_rfl
    (by simp) (by simp)
  refine ⟨⟨h.nodes, trav.foldl (fun par t => Function.update par t (some (rep v))) h.parent,
      Function.update ch (rep v) (ch (rep v) ∪ trav.toFinset), h.size, h.parity, h.boundary⟩,
    by simp only [UnionFind.findRoot, h1, Option.bind_eq_bind, Option.bind_some]; rfl, ?_, rfl, rfl, rfl, rfl⟩
  have hpar : ∀ x, trav.foldl (fun par t => Function.update par t (some (rep v))) h.parent x =
      if x ∈ trav then some (rep v) else h.parent x := foldl_update_parent trav h.parent (rep v)
  have hchild : ∀ q x, x ∈ Function.update ch (rep v) (ch (rep v) ∪ trav.toFinset) q ↔
      (x ∈ h.children q ∧ x ∉ trav) ∨ (q = rep v ∧ x ∈ trav) := by
    intro q x
    by_cases hq : q = rep v
    · subst hq
      rw [Function.update_self, Finset.mem_union, h3, List.mem_toFinset]
      tauto
    · rw [Function.update_of_ne hq, h3]
      tauto
  refine ⟨H.rep_mem, H.rep_rep, ?_, H.dep_root, ?_, H.dep_lt, ?_, H.size, H.parity, H.bnone, H.bsome, H.len⟩
  · intro x hx
    simp only
    rw [hpar]
    split_ifs with hxt
    · obtain ⟨_, h5, h6⟩ := h2 x hxt
      refine ⟨fun e => absurd e (by simp), fun e => ?_⟩
      have := H.dep_root x hx
      rw [e] at this
      omega
    · exact H.root_iff x hx
  · intro x hx q hq
    simp only at hq ⊢
    rw [hpar] at hq
    rw [hchild]
    split_ifs at hq with hxt
    · obtain rfl := Option.some.inj hq
      obtain ⟨_, h5, h6⟩ := h2 x hxt
      refine ⟨H.rep_mem v hv, by rw [H.rep_rep v hv, h5], ?_, Or.inr ⟨rfl, hxt⟩⟩
      rw [H.dep_root v hv]; exact h6
    · obtain ⟨a, b, c, d⟩ := H.par x hx q hq
      exact ⟨a, b, c, Or.inl ⟨d, hxt⟩⟩
  · intro q c hc
    simp only at hc ⊢
    rw [hpar]
    rcases (hchild q c).1 hc with ⟨h5, h6⟩ | ⟨rfl, h6⟩
    · rw [if_neg h6]
      exact H.child q c h5
    · rw [if_pos h6]
      exact ⟨H.rep_mem v hv, (h2 c h6).1, rfl⟩

theorem countP_split (ns : List N) (f g k : N → Bool) (hfg : ∀ u ∈ ns, k u = (f u || g u))
    (hd : ∀ u ∈ ns, f u = true → g u = false) : ns.countP k = ns.countP f + ns.countP g := by
  induction ns with
  | nil => rfl
  | cons a l ih =>
    have h1 := hfg a (by simp)
    have h2 := hd a (by simp)
    rw [List.countP_cons, List.countP_cons, List.countP_cons, ih (fun u hu => hfg u (by simp [hu]))
      (fun u hu => hd u (by simp [hu])), h1]
    cases hf : f a <;> cases hg : g a <;> simp_all <;> omega

/-- The partition after joining the classes of `big` and `small`. -/
def joinRep (rep : N → N) (big small : N) (v : N) : N := if rep v = small then big else rep v

def joinDep (rep : N → N) (dep : N → ℕ) (small : N) (v : N) : ℕ := if rep v = small then dep v + 1 else dep v

theorem HInv.join {ns : List N} {p : N → Option Bool} {h : Heap N} {rep : N → N} {dep : N → ℕ}
    (H : HInv ns p h rep dep) {big small : N} (hb : big ∈ ns) (hs : small ∈ ns) (hbr : rep big = big)
    (hsr : rep small = small) (hne : big ≠ small) :
    HInv ns p ⟨h.nodes, Function.update h.parent small (some big),
      Function.update h.children big (insert small (h.children big)),
      Function.update h.size big (h.size big + h.size small),
      Function.update h.parity big (xor (h.parity big) (h.parity small)),
      if h.boundary small ≠ none then Function.update h.boundary big (h.boundary small) else h.boundary⟩
      (joinRep rep big small) (joinDep rep dep small) := by
  have hrep : ∀ v ∈ ns, rep v ≠ small → joinRep rep big small v = rep v := fun v _ h => if_neg h
  have hreps : ∀ v, rep v = small → joinRep rep big small v = big := fun v h => if_pos h
  have hbig' : joinRep rep big small big = big := by
    rw [hrep big hb (by rw [hbr]; exact hne), hbr]
  have hcls : ∀ v, joinRep rep big small v = big ↔ rep v = big ∨ rep v = small := by
    intro v
    unfold joinRep
    split_ifs with h1
    · simp [h1]
    · simp [h1]
  have hcount : ∀ (f : N → Bool), (ns.countP fun u => decide (joinRep rep big small u = big ∧ f u = true)) =
      (ns.countP fun u => decide (rep u = big ∧ f u = true)) + ns.countP fun u => decide (rep u = small ∧ f u = true) := by
    intro f
    apply countP_split
    · intro u _
      rw [Bool.eq_iff_iff]
      simp only [decide_eq_true_eq, Bool.or_eq_true, hcls]
      tauto
    · intro u _ h1
      simp only [decide_eq_true_eq, decide_eq_false_iff_not] at h1 ⊢
      rintro ⟨h2, _⟩
      exact hne (h1.1.symm.trans h2)
  have hcount1 : (ns.countP fun u => decide (joinRep rep big small u = big)) =
      (ns.countP fun u => decide (rep u = big)) + ns.countP fun u => decide (rep u = small) := by
    have := hcount fun _ => true
    simpa using this
  have hother : ∀ v, rep v ≠ big → rep v ≠ small → ∀ u, joinRep rep big small u = joinRep rep big small v ↔ rep u = rep v := by
    intro v h1 h2 u
    have : joinRep rep big small v = rep v := if_neg h2
    rw [this]
    unfold joinRep
    split_ifs with h3
    · rw [h3]
      exact ⟨fun h => absurd h.symm h1, fun h => absurd h.symm h2⟩
    · rfl
  have hrepmem : ∀ v ∈ ns, joinRep rep big small v ∈ ns := by
    intro v hv
    unfold joinRep
    split_ifs
    · exact hb
    · exact H.rep_mem v hv
  -- a class is the joined one or untouched
  have hcases : ∀ v ∈ ns, joinRep rep big small v = big ∨
      (joinRep rep big small v = rep v ∧ rep v ≠ big ∧ rep v ≠ small) := by
    intro v hv
    by_cases h1 : rep v = big ∨ rep v = small
    · exact Or.inl ((hcls v).2 h1)
    · push Not at h1
      exact Or.inr ⟨if_neg h1.2, h1⟩
  refine ⟨hrepmem, ?_, ?_, ?_, ?_, ?_, ?_, ?_, ?_, ?_, ?_, H.len⟩
  · intro v hv
    rcases hcases v hv with h1 | ⟨h1, h2, h3⟩
    · rw [h1, hbig']
    · rw [h1, hrep _ (H.rep_mem v hv) (by rw [H.rep_rep v hv]; exact h3), H.rep_rep v hv]
  · intro v hv
    simp only
    by_cases hvs : v = small
    · subst hvs
      rw [Function.update_self, hreps v hsr]
      exact ⟨fun e => absurd e (by simp), fun e => absurd e hne⟩
    · rw [Function.update_of_ne hvs, H.root_iff v hv]
      unfold joinRep
      split_ifs with h1
      · refine ⟨fun e => absurd (e.symm.trans h1) hvs, fun e => ?_⟩
        subst e
        exact absurd (hbr.symm.trans h1) hne
      · rfl
  · intro v hv
    unfold joinDep
    rcases hcases v hv with h1 | ⟨h1, h2, h3⟩
    · rw [h1, if_neg (by rw [hbr]; exact hne)]
      have := H.dep_root big hb
      rwa [hbr] at this
    · rw [h1, if_neg (by rw [H.rep_rep v hv]; exact h3)]
      exact H.dep_root v hv
  · intro v hv q hq
    simp only at hq ⊢
    by_cases hvs : v = small
    · subst hvs
      rw [Function.update_self] at hq
      obtain rfl := Option.some.inj hq
      refine ⟨hb, by rw [hbig', hreps v hsr], ?_, by rw [Function.update_self]; simp⟩
      unfold joinDep
      rw [if_neg (by rw [hbr]; exact hne), if_pos hsr]
      have := H.dep_root big hb
      rw [hbr] at this
      omega
    · rw [Function.update_of_ne hvs] at hq
      obtain ⟨a, b, c, d⟩ := H.par v hv q hq
      refine ⟨a, by unfold joinRep; rw [b], ?_, ?_⟩
      · unfold joinDep
        rw [b]
        split_ifs <;> omega
      · by_cases hqb : q = big
        · subst hqb; rw [Function.update_self]; exact Finset.mem_insert_of_mem d
        · rw [Function.update_of_ne hqb]; exact d
  · intro v hv
    have hd := H.dep_lt v hv
    rcases hcases v hv with h1 | ⟨h1, h2, h3⟩
    · rw [h1, hcount1]
      unfold joinDep
      have e1 : 0 < ns.countP fun u => decide (rep u = big) :=
        List.countP_pos_iff.2 ⟨big, hb, by simpa using hbr⟩
      rcases (hcls v).1 h1 with h4 | h4
      · rw [if_neg (by rw [h4]; exact hne)]
        rw [h4] at hd
        omega
      · rw [if_pos h4]
        rw [h4] at hd
        omega
    · simp only [hother v h2 h3]
      unfold joinDep
      rw [if_neg h3]
      exact hd
  · intro q c hc
    simp only at hc ⊢
    have hold : c ∈ h.children q → q ∈ ns ∧ c ∈ ns ∧ Function.update h.parent small (some big) c = some q := by
      intro hc
      obtain ⟨a, b, d⟩ := H.child q c hc
      refine ⟨a, b, ?_⟩
      rw [Function.update_of_ne, d]
      rintro rfl
      rw [(H.root_iff c hs).2 hsr] at d
      cases d
    by_cases hqb : q = big
    · subst hqb
      rw [Function.update_self, Finset.mem_insert] at hc
      rcases hc with rfl | hc
      · exact ⟨hb, hs, by rw [Function.update_self]⟩
      · exact hold hc
    · rw [Function.update_of_ne hqb] at hc
      exact hold hc
  · intro v hv
    simp only
    rcases hcases v hv with h1 | ⟨h1, h2, h3⟩
    · rw [h1, hcount1, Function.update_self]
      have e1 := H.size big hb
      have e2 := H.size small hs
      rw [hbr] at e1
      rw [hsr] at e2
      rw [e1, e2]
    · simp only [hother v h2 h3]
      rw [h1, Function.update_of_ne h2]
      exact H.size v hv
  · intro v hv
    simp only
    rcases hcases v hv with h1 | ⟨h1, h2, h3⟩
    · have e3 := hcount fun u => decide (p u = some true)
      simp only [decide_eq_true_eq] at e3
      rw [h1, e3, Function.update_self]
      have e1 := H.parity big hb
      have e2 := H.parity small hs
      rw [hbr] at e1
      rw [hsr] at e2
      rw [e1, e2]
      generalize ns.countP (fun u => decide (rep u = big ∧ p u = some true)) = x
      generalize ns.countP (fun u => decide (rep u = small ∧ p u = some true)) = y
      rw [Bool.eq_iff_iff]
      simp only [bne_iff_ne, ne_eq, decide_eq_decide, decide_eq_true_eq]
      omega
    · simp only [hother v h2 h3]
      rw [h1, Function.update_of_ne h2]
      exact H.parity v hv
  · intro v hv hn u hu huv
    simp only at hn
    rcases hcases v hv with h1 | ⟨h1, h2, h3⟩
    · rw [h1] at hn huv
      have hbs : h.boundary small = none := by
        by_contra hc
        rw [if_pos hc, Function.update_self] at hn
        exact hc hn
      rw [if_neg (by simpa using hbs)] at hn
      rcases (hcls u).1 huv with h4 | h4
      · exact H.bnone big hb (by rw [hbr]; exact hn) u hu (by rw [h4, hbr])
      · exact H.bnone small hs (by rw [hsr]; exact hbs) u hu (by rw [h4, hsr])
    · rw [hother v h2 h3] at huv
      rw [h1] at hn
      refine H.bnone v hv ?_ u hu huv
      split_ifs at hn with hc
      · rwa [Function.update_of_ne h2] at hn
      · exact hn
  · intro v hv b hb'
    simp only at hb'
    rcases hcases v hv with h1 | ⟨h1, h2, h3⟩
    · rw [h1] at hb' ⊢
      split_ifs at hb' with hc
      · rw [Function.update_self] at hb'
        obtain ⟨a, c, d⟩ := H.bsome small hs b (by rw [hsr]; exact hb')
        exact ⟨a, (hcls b).2 (Or.inr (by rw [c, hsr])), d⟩
      · obtain ⟨a, c, d⟩ := H.bsome big hb b (by rw [hbr]; exact hb')
        exact ⟨a, (hcls b).2 (Or.inl (by rw [c, hbr])), d⟩
    · have : h.boundary (rep v) = some b := by
        rw [h1] at hb'
        split_ifs at hb' with hc
        · rwa [Function.update_of_ne h2] at hb'
        · exact hb'
      obtain ⟨a, c, d⟩ := H.bsome v hv b this
      exact ⟨a, (hother v h2 h3 b).2 c, d⟩

/-- `union` of two roots joins their classes. -/
theorem HInv.union {ns : List N} {p : N → Option Bool} {h : Heap N} {rep : N → N} {dep : N → ℕ}
    (H : HInv ns p h rep dep) {r s : N} (hr : r ∈ ns) (hs : s ∈ ns) (hrr : rep r = r)
    (hsr : rep s = s) (hne : r ≠ s) :
    ∃ big small h', union h r s = (h', some (big, small)) ∧ h'.nodes = h.nodes ∧
      (big = r ∧ small = s ∧ h.size s ≤ h.size r ∨ big = s ∧ small = r ∧ h.size r < h.size s) ∧
      h'.parent = Function.update h.parent small (some big) ∧
      h'.parity = Function.update h.parity big (xor (h.parity big) (h.parity small)) ∧
      h'.boundary = (if h.boundary small ≠ none then Function.update h.boundary big (h.boundary small) else h.boundary) ∧
      HInv ns p h' (joinRep rep big small) (joinDep rep dep small) := by
  unfold UnionFind.union
  rw [if_pos hne]
  by_cases hsz : h.size r ≥ h.size s
  · simp only [if_pos hsz]
    exact ⟨r, s, _, rfl, rfl, Or.inl ⟨rfl, rfl, hsz⟩, rfl, rfl, rfl, H.join hr hs hrr hsr hne⟩
  · simp only [if_neg hsz]
    exact ⟨s, r, _, rfl, rfl, Or.inr ⟨rfl, rfl, by omega⟩, rfl, rfl, rfl, H.join hs hr hsr hrr (Ne.symm hne)⟩

theorem joinRep_eq (rep : N → N) {r s big small : N} (hne : r ≠ s)
    (h : big = r ∧ small = s ∨ big = s ∧ small = r) (u v : N) :
    joinRep rep big small u = joinRep rep big small v ↔
      rep u = rep v ∨ (rep u = r ∧ rep v = s) ∨ (rep u = s ∧ rep v = r) := by
  unfold joinRep
  rcases h with ⟨rfl, rfl⟩ | ⟨rfl, rfl⟩ <;> split_ifs <;> simp_all <;> tauto

/-- A new root. -/
theorem HInv.mkRoot {ns : List N} {p : N → Option Bool} {h : Heap N} {rep : N → N} {dep : N → ℕ}
    (H : HInv ns p h rep dep) {v : N} (hv : v ∉ ns) (hlen : ns.length < h.nodes.length) :
    HInv (ns ++ [v]) p (mkRoot h v (p v)) (Function.update rep v v) (Function.update dep v 0) := by
  have hne : ∀ u ∈ ns, u ≠ v := fun u hu e => hv (e ▸ hu)
  have hrep : ∀ u ∈ ns, Function.update rep v v u = rep u := fun u hu => Function.update_of_ne (hne u hu) _ _
  have hdep : ∀ u ∈ ns, Function.update dep v 0 u = dep u := fun u hu => Function.update_of_ne (hne u hu) _ _
  have hrne : ∀ u ∈ ns, rep u ≠ v := fun u hu => hne _ (H.rep_mem u hu)
  have hcnt : ∀ (u : N) (f : N → Bool), u ∈ ns →
      ((ns ++ [v]).countP fun x => decide (Function.update rep v v x = Function.update rep v v u ∧ f x = true)) =
        ns.countP fun x => decide (rep x = rep u ∧ f x = true) := by
    intro u f hu
    rw [List.countP_append, List.countP_singleton, if_neg, Nat.add_zero]
    · apply List.countP_congr
      intro x hx
      simp only [hrep x hx, hrep u hu]
    · simp only [decide_eq_true_eq, Function.update_self, hrep u hu, not_and]
      intro e
      exact absurd e.symm (hrne u hu)
  have hcntv : ∀ (f : N → Bool),
      ((ns ++ [v]).countP fun x => decide (Function.update rep v v x = v ∧ f x = true)) = if f v then 1 else 0 := by
    intro f
    rw [List.countP_append, List.countP_singleton]
    have : ns.countP (fun x => decide (Function.update rep v v x = v ∧ f x = true)) = 0 := by
      rw [List.countP_eq_zero]
      intro x hx
      simp only [hrep x hx, decide_eq_true_eq, not_and]
      intro e
      exact absurd e (hrne x hx)
    rw [this]
    by_cases hf : f v = true <;> simp [hf]
  have hcnt1 : ∀ u ∈ ns, ((ns ++ [v]).countP fun x => decide (Function.update rep v v x = Function.update rep v v u)) =
        ns.countP fun x => decide (rep x = rep u) := by
    intro u hu
    simpa using hcnt u (fun _ => true) hu
  have hcntv1 : ((ns ++ [v]).countP fun x => decide (Function.update rep v v x = v)) = 1 := by
    simpa using hcntv fun _ => true
  have hmem : ∀ u, u ∈ ns ++ [v] ↔ u ∈ ns ∨ u = v := by simp
  refine ⟨?_, ?_, ?_, ?_, ?_, ?_, ?_, ?_, ?_, ?_, ?_, ?_⟩
  · intro u hu
    rcases (hmem u).1 hu with hu | rfl
    · rw [hrep u hu]; exact (hmem _).2 (Or.inl (H.rep_mem u hu))
    · rw [Function.update_self]; exact hu
  · intro u hu
    rcases (hmem u).1 hu with hu | rfl
    · rw [hrep u hu, hrep _ (H.rep_mem u hu), H.rep_rep u hu]
    · rw [Function.update_self, Function.update_self]
  · intro u hu
    simp only [UnionFind.mkRoot]
    rcases (hmem u).1 hu with hu | rfl
    · rw [Function.update_of_ne (hne u hu), hrep u hu]; exact H.root_iff u hu
    · simp
  · intro u hu
    rcases (hmem u).1 hu with hu | rfl
    · rw [hrep u hu, hdep _ (H.rep_mem u hu)]; exact H.dep_root u hu
    · simp
  · intro u hu q hq
    simp only [UnionFind.mkRoot] at hq ⊢
    rcases (hmem u).1 hu with hu | rfl
    · rw [Function.update_of_ne (hne u hu)] at hq
      obtain ⟨a, b, c, d⟩ := H.par u hu q hq
      exact ⟨(hmem q).2 (Or.inl a), by rw [hrep q a, hrep u hu, b], by rw [hdep q a, hdep u hu]; exact c, d⟩
    · simp at hq
  · intro u hu
    rcases (hmem u).1 hu with hu | rfl
    · rw [hcnt1 u hu, hdep u hu]; exact H.dep_lt u hu
    · rw [Function.update_self, Function.update_self, hcntv1]; exact Nat.one_pos
  · intro q c hc
    simp only [UnionFind.mkRoot] at hc ⊢
    obtain ⟨a, b, d⟩ := H.child q c hc
    exact ⟨(hmem q).2 (Or.inl a), (hmem c).2 (Or.inl b), by rw [Function.update_of_ne (hne c b), d]⟩
  · intro u hu
    simp only [UnionFind.mkRoot]
    rcases (hmem u).1 hu with hu | rfl
    · rw [hcnt1 u hu, hrep u hu, Function.update_of_ne (hrne u hu)]; exact H.size u hu
    · rw [Function.update_self, Function.update_self, hcntv1]
  · intro u hu
    simp only [UnionFind.mkRoot]
    rcases (hmem u).1 hu with hu | rfl
    · have := hcnt u (fun x => decide (p x = some true)) hu
      simp only [decide_eq_true_eq] at this
      rw [this, hrep u hu, Function.update_of_ne (hrne u hu)]; exact H.parity u hu
    · have := hcntv (fun x => decide (p x = some true))
      simp only [decide_eq_true_eq] at this
      rw [Function.update_self, this, Function.update_self]
      cases hp : p u with
      | none => simp
      | some b => cases b <;> simp
  · intro u hu hb x hx hxu
    simp only [UnionFind.mkRoot] at hb
    rcases (hmem u).1 hu with hu' | rfl
    · rw [hrep u hu', Function.update_of_ne (hrne u hu')] at hb
      rw [hrep u hu'] at hxu
      rcases (hmem x).1 hx with hx | hxv
      · rw [hrep x hx] at hxu
        exact H.bnone u hu' hb x hx hxu
      · rw [hxv, Function.update_self] at hxu
        exact absurd hxu.symm (hrne u hu')
    · rw [Function.update_self] at hb hxu
      rw [Function.update_self] at hb
      rcases (hmem x).1 hx with hx | rfl
      · rw [hrep x hx] at hxu
        exact absurd hxu (hrne x hx)
      · intro hp
        rw [if_pos hp] at hb
        cases hb
  · intro u hu b hb
    simp only [UnionFind.mkRoot] at hb
    rcases (hmem u).1 hu with hu | rfl
    · rw [hrep u hu, Function.update_of_ne (hrne u hu)] at hb
      obtain ⟨a, c, d⟩ := H.bsome u hu b hb
      exact ⟨(hmem b).2 (Or.inl a), by rw [hrep b a, hrep u hu, c], d⟩
    · rw [Function.update_self, Function.update_self] at hb
      split_ifs at hb with hp
      obtain rfl := Option.some.inj hb
      exact ⟨hu, rfl, hp⟩
  · simp only [UnionFind.mkRoot, List.length_append, List.length_singleton]
    exact hlen

theorem HInv.new (ns : List N) (p : N → Option Bool) : HInv [] p (newNodes ns) id fun _ => 0 := by
  refine ⟨?_, ?_, ?_, ?_, ?_, ?_, ?_, ?_, ?_, ?_, ?_, ?_⟩ <;> simp [newNodes]

end Flamingpy.UnionFind
