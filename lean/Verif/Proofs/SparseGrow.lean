import Verif.Proofs.Sparse
import Verif.Proofs.UfWidth

/-!
# Growing clusters around islands

For C85: clusters that grow while they are odd do not reach far beyond the islands of the error, if there are only islands.
-/

namespace Flamingpy.Sparse

variable {N : Type} [DecidableEq N]

/-- Lengths for the scales. -/
structure Scales (a b tau rho delta e : ℕ → ℕ) : Prop where
  tau_zero : tau 0 = 0
  tau_succ : ∀ j, tau (j + 1) = tau j + 2 * (a j + 2)
  rho_le : ∀ j, 2 ^ j * tau (j + 1) + e j ≤ rho j
  delta_le : ∀ j, 2 * rho j + a j + 2 ≤ delta j
  e_le : ∀ j, 2 * e j + delta j ≤ e (j + 1)
  b_le : ∀ j, 2 * rho j + 2 * e j + delta j + 2 ≤ b j

/-- Connected by edges that are grown. -/
def Cc (Es : Finset (Sym2 N)) (lv : Sym2 N → ℕ) : N → N → Prop := Relation.ReflTransGen fun x y => s(x, y) ∈ Es ∧ lv s(x, y) = 2

theorem Cc.symm {Es : Finset (Sym2 N)} {lv : Sym2 N → ℕ} {u v : N} (h : Cc Es lv u v) : Cc Es lv v u := by
  induction h with
  | refl => exact .refl
  | tail _ h ih => exact Relation.ReflTransGen.head (by rw [Sym2.eq_swap]; exact h) ih

theorem Cc.mono {Es : Finset (Sym2 N)} {lv lv' : Sym2 N → ℕ} (hl : ∀ e ∈ Es, lv e = 2 → lv' e = 2) {u v : N} (h : Cc Es lv u v) :
    Cc Es lv' u v := Relation.ReflTransGen.mono (fun _ _ h => ⟨h.1, hl _ h.1 h.2⟩) _ _ h

/-- The number of edges at a node. -/
def dg (F : Finset (Sym2 N)) (v : N) : ℕ := (F.filter (v ∈ ·)).card

theorem dg_pos {F : Finset (Sym2 N)} {v : N} (h : dg F v ≠ 0) : ∃ e ∈ F, v ∈ e := by
  rw [dg, Finset.card_ne_zero] at h
  obtain ⟨e, he⟩ := h
  exact ⟨e, (Finset.mem_filter.1 he).1, (Finset.mem_filter.1 he).2⟩

open Classical in
/-- The edges of `F` at the nodes of the cluster of `u`. -/
noncomputable def tot (ns : Finset N) (Es : Finset (Sym2 N)) (lv : Sym2 N → ℕ) (F : Finset (Sym2 N)) (u : N) : ℕ :=
  ∑ v ∈ ns.filter fun v => Cc Es lv u v, dg F v

open Classical in
/-- A growth process: an edge grows by the number of its active ends; all odd clusters without boundary are active. -/
structure Growth (ns : Finset N) (Es : Finset (Sym2 N)) (bd : N → Prop) (Er B : Finset (Sym2 N)) (lv : ℕ → Sym2 N → ℕ) (G : ℕ → N → Prop) :
    Prop where
  ends : ∀ u v, s(u, v) ∈ Es → u ∈ ns ∧ u ≠ v
  error : Er ⊆ B
  bad : B ⊆ Es
  init : ∀ e ∈ Es, lv 0 e = 2 → e ∈ B
  le : ∀ t e, lv t e ≤ 2
  step : ∀ t u v, s(u, v) ∈ Es → lv (t + 1) s(u, v) = min 2 (lv t s(u, v) + ((if G t u then 1 else 0) + if G t v then 1 else 0))
  active : ∀ t u, u ∈ ns → (∀ v, Cc Es (lv t) u v → ¬ bd v) → Odd (tot ns Es (lv t) Er u) → ∀ v, Cc Es (lv t) u v → G t v
  odd : ∀ t u, G (t + 1) u → Odd (tot ns Es (lv (t + 1)) Er u) ∧ ∀ v, Cc Es (lv (t + 1)) u v → ¬ bd v
  odd0 : ∀ u, G 0 u → ∃ v, Cc Es (lv 0) u v ∧ ∃ e ∈ B, v ∈ e

/-- In a set of clusters that is odd, one is odd. -/
theorem odd_class {R : N → N → Prop} (hr : ∀ x, R x x) (hs : ∀ x y, R x y → R y x) (ht : ∀ x y z, R x y → R y z → R x z) (f : N → ℕ) (ns : Finset N)
    (K : Finset N) : K ⊆ ns → (∀ x ∈ K, ∀ y ∈ ns, R x y → y ∈ K) → Odd (∑ v ∈ K, f v) →
    ∃ u ∈ K, ∃ C : Finset N, (∀ v, v ∈ C ↔ v ∈ ns ∧ R u v) ∧ Odd (∑ v ∈ C, f v) := by
  classical
  induction K using Finset.strongInduction with
  | H K ih =>
    intro hK hc ho
    by_cases hne : K = ∅
    · subst hne
      simp at ho
    obtain ⟨u, hu⟩ := Finset.nonempty_iff_ne_empty.2 hne
    have hsub : ns.filter (R u) ⊆ K := fun v hv => hc u hu v (Finset.mem_filter.1 hv).1 (Finset.mem_filter.1 hv).2
    by_cases h1 : Odd (∑ v ∈ ns.filter (R u), f v)
    · exact ⟨u, hu, ns.filter (R u), fun v => Finset.mem_filter, h1⟩
    · have h2 : Odd (∑ v ∈ K \ ns.filter (R u), f v) := by
        rw [← Finset.sum_sdiff hsub] at ho
        rcases Nat.odd_add.1 ho with h3
        exact h3.2 (Nat.not_odd_iff_even.1 h1)
      obtain ⟨w, hw, C, hC, hCo⟩ := ih (K \ ns.filter (R u)) (Finset.ssubset_iff_subset_ne.2 ⟨Finset.sdiff_subset, fun h => by
          have : u ∈ K \ ns.filter (R u) := (Finset.ext_iff.1 h u).2 hu
          exact (Finset.mem_sdiff.1 this).2 (Finset.mem_filter.2 ⟨hK hu, hr u⟩)⟩) (Finset.sdiff_subset.trans hK) (fun x hx y hy hxy => by
          rw [Finset.mem_sdiff] at hx ⊢
          refine ⟨hc x hx.1 y hy hxy, fun hyu => hx.2 (Finset.mem_filter.2 ⟨hK hx.1, ?_⟩)⟩
          exact ht _ _ _ (Finset.mem_filter.1 hyu).2 (hs _ _ hxy)) h2
      exact ⟨w, (Finset.mem_sdiff.1 hw).1, C, hC, hCo⟩

section

variable {ns : Finset N} {Es : Finset (Sym2 N)} {bd : N → Prop} {Er B : Finset (Sym2 N)} {lv : ℕ → Sym2 N → ℕ} {G : ℕ → N → Prop}

theorem Growth.lv_mono (g : Growth ns Es bd Er B lv G) {e : Sym2 N} (he : e ∈ Es) (t : ℕ) : lv t e ≤ lv (t + 1) e := by
  induction e using Sym2.ind with
  | _ u v =>
    rw [g.step t u v he]
    have := g.le t s(u, v)
    exact le_min this (Nat.le_add_right _ _)

theorem Growth.lv_mono' (g : Growth ns Es bd Er B lv G) {e : Sym2 N} (he : e ∈ Es) {t t' : ℕ} (h : t ≤ t') : lv t e ≤ lv t' e := by
  induction t', h using Nat.le_induction with
  | base => exact le_rfl
  | succ t' _ ih => exact ih.trans (g.lv_mono he t')

theorem Growth.cc_mono (g : Growth ns Es bd Er B lv G) {t t' : ℕ} (h : t ≤ t') {u v : N} (hc : Cc Es (lv t) u v) : Cc Es (lv t') u v :=
  hc.mono fun e he h2 => by
    have h3 := g.lv_mono' he h
    have h4 := g.le t' e
    omega

theorem Growth.cc_mem (g : Growth ns Es bd Er B lv G) {t : ℕ} {u v : N} (hu : u ∈ ns) (hc : Cc Es (lv t) u v) : v ∈ ns := by
  induction hc with
  | refl => exact hu
  | tail _ h _ => exact (g.ends _ _ (by rw [Sym2.eq_swap]; exact h.1)).1

theorem Growth.mem_ns (g : Growth ns Es bd Er B lv G) {e : Sym2 N} (he : e ∈ Es) {v : N} (hv : v ∈ e) : v ∈ ns := by
  obtain ⟨w, rfl⟩ := Sym2.mem_iff_exists.1 hv
  exact (g.ends _ _ he).1

/-- An odd cluster contains, at any earlier time, an odd cluster. -/
theorem Growth.odd_earlier (g : Growth ns Es bd Er B lv G) {t t' : ℕ} (h : t ≤ t') {F : Finset (Sym2 N)} {u : N}
    (ho : Odd (tot ns Es (lv t') F u)) : ∃ v ∈ ns, Cc Es (lv t') u v ∧ Odd (tot ns Es (lv t) F v) := by
  classical
  obtain ⟨v, hv, C, hC, hCo⟩ := odd_class (R := Cc Es (lv t)) (fun _ => .refl) (fun _ _ => Cc.symm) (fun _ _ _ => .trans) (dg F) ns
    (ns.filter fun v => Cc Es (lv t') u v) (Finset.filter_subset _ _) (fun x hx y hy hxy =>
      Finset.mem_filter.2 ⟨hy, (Finset.mem_filter.1 hx).2.trans (g.cc_mono h hxy)⟩) ho
  refine ⟨v, (Finset.mem_filter.1 hv).1, (Finset.mem_filter.1 hv).2, ?_⟩
  have : C = ns.filter fun w => Cc Es (lv t) v w := by
    ext w
    rw [hC, Finset.mem_filter]
  rwa [this] at hCo

theorem tot_odd {F : Finset (Sym2 N)} {l : Sym2 N → ℕ} {u : N} (h : Odd (tot ns Es l F u)) : ∃ v, v ∈ ns ∧ Cc Es l u v ∧ ∃ e ∈ F, v ∈ e := by
  classical
  by_contra hc
  push Not at hc
  have : tot ns Es l F u = 0 := Finset.sum_eq_zero fun v hv => by
    by_contra h0
    obtain ⟨e, he, hve⟩ := dg_pos h0
    exact hc v (Finset.mem_filter.1 hv).1 (Finset.mem_filter.1 hv).2 e he hve
  rw [this] at h
  simp at h

theorem tot_congr {F F' : Finset (Sym2 N)} {l : Sym2 N → ℕ} {u : N} (h : ∀ v, Cc Es l u v → ∀ e, v ∈ e → (e ∈ F ↔ e ∈ F')) :
    tot ns Es l F u = tot ns Es l F' u := by
  classical
  refine Finset.sum_congr rfl fun v hv => ?_
  rw [dg, dg]
  congr 1
  ext e
  rw [Finset.mem_filter, Finset.mem_filter]
  exact ⟨fun he => ⟨(h v (Finset.mem_filter.1 hv).2 e he.2).1 he.1, he.2⟩, fun he => ⟨(h v (Finset.mem_filter.1 hv).2 e he.2).2 he.1, he.2⟩⟩

theorem tot_union {F F' : Finset (Sym2 N)} (hd : Disjoint F F') {l : Sym2 N → ℕ} {u : N} :
    tot ns Es l (F ∪ F') u = tot ns Es l F u + tot ns Es l F' u := by
  classical
  rw [tot, tot, tot, ← Finset.sum_add_distrib]
  refine Finset.sum_congr rfl fun v _ => ?_
  rw [dg, Finset.filter_union, Finset.card_union_of_disjoint (Finset.disjoint_filter_filter hd)]
  rfl

theorem tot_even {F : Finset (Sym2 N)} (hloop : ∀ e ∈ F, ¬ e.IsDiag) {l : Sym2 N → ℕ} {u : N} (h : ∀ e ∈ F, ∀ v ∈ e, v ∈ ns ∧ Cc Es l u v) :
    Even (tot ns Es l F u) := by
  classical
  by_contra ho
  rw [Nat.not_even_iff_odd, tot, Finset.odd_sum_iff_odd_card_odd] at ho
  obtain ⟨p, q, he, _, hq⟩ := UnionFind.leaving _ F hloop ho
  exact hq (Finset.mem_filter.2 (h _ he q (Sym2.mem_mk_right p q)))

variable {a b tau rho delta e : ℕ → ℕ}

/-- What is left of the bad edges. -/
noncomputable abbrev El (Es B : Finset (Sym2 N)) (a b : ℕ → ℕ) (j : ℕ) : Finset (Sym2 N) := sub (eNear Es) a b B j

/-- The islands of a scale. -/
abbrev Isl (Es B : Finset (Sym2 N)) (a b : ℕ → ℕ) (j : ℕ) (S : Finset (Sym2 N)) : Prop := Island (eNear Es) (a j) (b j) (El Es B a b j) S

theorem Isl.mem (g : Growth ns Es bd Er B lv G) {j : ℕ} {S : Finset (Sym2 N)} (h : Isl Es B a b j S) {f : Sym2 N} (hf : f ∈ S) : f ∈ Es :=
  g.bad (sub_sub a b B j (h.1 hf))

theorem Isl.diam (g : Growth ns Es bd Er B lv G) (sc : Scales a b tau rho delta e) {j : ℕ} {S : Finset (Sym2 N)} (h : Isl Es B a b j S) {u v : N}
    (hu : NearS Es (rho j) S u) (hv : NearS Es (rho j) S v) : Near Es (delta j) u v := by
  obtain ⟨f, hf, z, hz, h1⟩ := hu
  obtain ⟨f', hf', z', hz', h2⟩ := hv
  have h3 := h.2.1 f hf f' hf'
  have := ((h1.symm.trans (near_end (h.mem g hf) hz).symm).trans h3).trans ((near_end (h.mem g hf') hz').trans h2)
  refine this.mono ?_
  have := sc.delta_le j
  omega

theorem Isl.sep (g : Growth ns Es bd Er B lv G) (sc : Scales a b tau rho delta e) {j : ℕ} {S S' : Finset (Sym2 N)} (h : Isl Es B a b j S)
    (h' : Isl Es B a b j S') {u v : N} (hu : NearS Es (rho j) S u) (hv : NearS Es (rho j) S' v) (hn : Near Es (2 * e j + delta j) u v) : S = S' := by
  obtain ⟨f, hf, z, hz, h1⟩ := hu
  obtain ⟨f', hf', z', hz', h2⟩ := hv
  have hb := sc.b_le j
  have hd := sc.delta_le j
  refine island_eq eNear_metric (by omega) h h' hf hf' ?_
  refine ((((near_end (h.mem g hf) hz).trans h1).trans hn).trans (h2.symm.trans (near_end (h'.mem g hf') hz').symm)).mono ?_
  omega

theorem Growth.path_near (g : Growth ns Es bd Er B lv G) (sc : Scales a b tau rho delta e) {j m : ℕ} {u v : N}
    (p : Path Es (Isl Es B a b) rho j m u v) : Near Es (2 ^ j * m + e j) u v :=
  Path.bound (Isl := Isl Es B a b) (rho := rho) (delta := delta) (e := e) (fun _ _ _ _ h hu hv => Isl.diam g sc h hu hv) sc.e_le (fun _ _ _ _ _ h h' hu hv hn => Isl.sep g sc h h' hu hv hn) j m u v p

/-- The cluster of `u` touches an edge of `F`. -/
def Touch (Es : Finset (Sym2 N)) (l : Sym2 N → ℕ) (F : Finset (Sym2 N)) (u : N) : Prop := ∃ v, Cc Es l u v ∧ ∃ e ∈ F, v ∈ e

/-- A cluster is reached from what is left, or is an island's. -/
def XInv (Es B : Finset (Sym2 N)) (a b rho : ℕ → ℕ) (lv : ℕ → Sym2 N → ℕ) (j t : ℕ) (v : N) : Prop :=
  (∃ w, Cc Es (lv t) v w ∧ (∃ f ∈ El Es B a b j, w ∈ f) ∧ ∃ m ≤ t, Path Es (Isl Es B a b) rho j m w v) ∨
    (¬ Touch Es (lv t) (El Es B a b j) v ∧ ((∀ x, Cc Es (lv t) v x → x = v) ∨
      ∃ i < j, ∃ S, Isl Es B a b i S ∧ ∀ x, Cc Es (lv t) v x → NearS Es (rho i) S x))

/-- The islands that have been removed are neutral. -/
def AInv (ns : Finset N) (Es : Finset (Sym2 N)) (bd : N → Prop) (Er B : Finset (Sym2 N)) (a b : ℕ → ℕ) (lv : ℕ → Sym2 N → ℕ) (j t : ℕ) : Prop :=
  ∀ u, (∀ v, Cc Es (lv t) u v → ¬ bd v) → Even (tot ns Es (lv t) (Er \ El Es B a b j) u)

theorem Growth.aInv_mono (g : Growth ns Es bd Er B lv G) {j t t' : ℕ} (h : t ≤ t') (A : AInv ns Es bd Er B a b lv j t) :
    AInv ns Es bd Er B a b lv j t' := by
  intro u hb
  by_contra ho
  rw [Nat.not_even_iff_odd] at ho
  obtain ⟨v, _, hc, hv⟩ := g.odd_earlier h ho
  exact Nat.not_even_iff_odd.2 hv (A v fun w hw => hb w (hc.trans (g.cc_mono h hw)))

/-- Active clusters touch what is left. -/
theorem Growth.touches (g : Growth ns Es bd Er B lv G) {j t : ℕ} (A : AInv ns Es bd Er B a b lv j t) (h0 : t = 0 → j = 0) {u : N} (hG : G t u) :
    Touch Es (lv t) (El Es B a b j) u := by
  cases t with
  | zero =>
    rw [h0 rfl]
    exact g.odd0 u hG
  | succ t =>
    obtain ⟨ho, hb⟩ := g.odd t u hG
    have h1 : Er = (Er \ El Es B a b j) ∪ (Er ∩ El Es B a b j) := (Finset.sdiff_union_inter _ _).symm
    rw [h1, tot_union (Finset.disjoint_sdiff_inter _ _)] at ho
    have h2 := A u hb
    have h3 : Odd (tot ns Es (lv (t + 1)) (Er ∩ El Es B a b j) u) := by
      by_contra hc
      exact Nat.not_even_iff_odd.2 ho (h2.add (Nat.not_odd_iff_even.1 hc))
    obtain ⟨v, _, hv, f, hf, hvf⟩ := tot_odd h3
    exact ⟨v, hv, f, (Finset.mem_inter.1 hf).2, hvf⟩

/-- A new edge has an active end. -/
theorem Growth.new_edge (g : Growth ns Es bd Er B lv G) {t : ℕ} {x y : N} (he : s(x, y) ∈ Es) (h : lv t s(x, y) ≠ 2) (h' : lv (t + 1) s(x, y) = 2) :
    G t x ∨ G t y := by
  by_contra hc
  push Not at hc
  rw [g.step t x y he, if_neg hc.1, if_neg hc.2] at h'
  have := g.le t s(x, y)
  omega

theorem Growth.xInv_step (g : Growth ns Es bd Er B lv G) {j t : ℕ} (A : AInv ns Es bd Er B a b lv j t) (h0 : t = 0 → j = 0)
    (X : ∀ v, XInv Es B a b rho lv j t v) (v : N) : XInv Es B a b rho lv j (t + 1) v := by
  rcases X v with ⟨w, h1, h2, m, hm, p⟩ | ⟨h1, h2⟩
  · exact Or.inl ⟨w, g.cc_mono (Nat.le_succ t) h1, h2, m, by omega, p⟩
  · by_cases hq : ∀ x, Cc Es (lv (t + 1)) v x → Cc Es (lv t) v x
    · refine Or.inr ⟨fun ⟨w, hw, hf⟩ => h1 ⟨w, hq w hw, hf⟩, ?_⟩
      rcases h2 with h2 | ⟨i, hi, S, hS, h2⟩
      · exact Or.inl fun x hx => h2 x (hq x hx)
      · exact Or.inr ⟨i, hi, S, hS, fun x hx => h2 x (hq x hx)⟩
    · left
      push Not at hq
      obtain ⟨z, hz, hzn⟩ := hq
      have : ∃ x y, Cc Es (lv t) v x ∧ s(x, y) ∈ Es ∧ lv (t + 1) s(x, y) = 2 ∧ ¬ Cc Es (lv t) v y := by
        clear h2 h1
        induction hz with
        | refl => exact absurd .refl hzn
        | @tail x y _ hxy ih =>
          by_cases hx : Cc Es (lv t) v x
          · exact ⟨x, y, hx, hxy.1, hxy.2, hzn⟩
          · exact ih hx
      obtain ⟨x, y, hx, hxy, h2', hy⟩ := this
      have hne : lv t s(x, y) ≠ 2 := fun h => hy (hx.tail ⟨hxy, h⟩)
      have hGy : G t y := by
        rcases g.new_edge hxy hne h2' with h | h
        · obtain ⟨w, hw, hf⟩ := g.touches A h0 h
          exact absurd ⟨w, hx.trans hw, hf⟩ h1
        · exact h
      have hty := g.touches A h0 hGy
      rcases X y with ⟨w, h3, h4, m, hm, p⟩ | ⟨h3, _⟩
      · have hvy : Cc Es (lv (t + 1)) v y := (g.cc_mono (Nat.le_succ t) hx).tail ⟨hxy, h2'⟩
        refine ⟨w, hvy.trans (g.cc_mono (Nat.le_succ t) h3), h4, m + 1, by omega, ?_⟩
        have p1 : Path Es (Isl Es B a b) rho j (m + 1) w x := .step p (by rwa [Sym2.eq_swap])
        rcases h2 with h2 | ⟨i, hi, S, hS, h2⟩
        · rw [← h2 x hx]
          exact p1
        · exact .hop p1 hi hS (h2 x hx) (h2 v .refl)
      · exact absurd hty h3

theorem Growth.xInv_zero (g : Growth ns Es bd Er B lv G) (v : N) : XInv Es B a b rho lv 0 0 v := by
  by_cases h : ∃ f ∈ B, v ∈ f
  · exact Or.inl ⟨v, .refl, h, 0, le_rfl, .refl v⟩
  · right
    have h1 : ∀ x, Cc Es (lv 0) v x → x = v := by
      intro x hx
      rcases Relation.ReflTransGen.cases_head hx with hx | ⟨w, hw, _⟩
      · exact hx.symm
      · exact absurd ⟨_, g.init _ hw.1 hw.2, Sym2.mem_mk_left v w⟩ h
    refine ⟨?_, Or.inl h1⟩
    rintro ⟨w, hw, hf⟩
    rw [h1 w hw] at hf
    exact h hf

/-- Clusters at an island stay near it, and do not touch anything else, until its time is over. -/
theorem Growth.near_island (g : Growth ns Es bd Er B lv G) (sc : Scales a b tau rho delta e) {j t : ℕ} (ht : t ≤ tau (j + 1))
    (X : ∀ v, XInv Es B a b rho lv j t v) {S : Finset (Sym2 N)} (hS : Isl Es B a b j S) {f : Sym2 N} (hf : f ∈ S) {u : N} (hu : u ∈ f) {x : N}
    (hx : Cc Es (lv t) u x) : NearS Es (rho j) S x := by
  have hl : ∀ x, Cc Es (lv t) u x → ∃ f ∈ El Es B a b j, ∃ z ∈ f, Near Es (rho j) z x := by
    intro x hx
    rcases X x with ⟨w, _, ⟨f, hf, hw⟩, m, hm, p⟩ | ⟨h, _⟩
    · refine ⟨f, hf, w, hw, (g.path_near sc p).mono ?_⟩
      have := sc.rho_le j
      have : 2 ^ j * m ≤ 2 ^ j * tau (j + 1) := Nat.mul_le_mul_left _ (by omega)
      omega
    · exact absurd ⟨u, hx.symm, f, hS.1 hf, hu⟩ h
  induction hx with
  | refl => exact ⟨f, hf, u, hu, (Near.refl u).mono (Nat.zero_le _)⟩
  | @tail y x hy hyx ih =>
    obtain ⟨f₁, hf₁, z, hz, h1⟩ := ih
    obtain ⟨f₂, hf₂, w, hw, h2⟩ := hl x (hy.tail hyx)
    by_cases hS2 : f₂ ∈ S
    · exact ⟨f₂, hS2, w, hw, h2⟩
    · refine absurd ?_ (hS.2.2 f₁ hf₁ f₂ hf₂ hS2)
      have hb := sc.b_le j
      have hd := sc.delta_le j
      refine ((((near_end (hS.mem g hf₁) hz).trans h1).trans (Near.edge hyx.1)).trans
        (h2.symm.trans (near_end (g.bad (sub_sub a b B j hf₂)) hw).symm)).mono ?_
      omega

theorem Growth.sep (g : Growth ns Es bd Er B lv G) (sc : Scales a b tau rho delta e) {j t : ℕ} (ht : t ≤ tau (j + 1))
    (X : ∀ v, XInv Es B a b rho lv j t v) {S : Finset (Sym2 N)} (hS : Isl Es B a b j S) {f : Sym2 N} (hf : f ∈ S) {u : N} (hu : u ∈ f) {x : N}
    (hx : Cc Es (lv t) u x) {f' : Sym2 N} (hf' : f' ∈ El Es B a b j) (hxf : x ∈ f') : f' ∈ S := by
  obtain ⟨f₁, hf₁, z, hz, h1⟩ := g.near_island sc ht X hS hf hu hx
  by_contra hc
  refine hS.2.2 f₁ hf₁ f' hf' hc ?_
  have hb := sc.b_le j
  have hd := sc.delta_le j
  refine (((near_end (hS.mem g hf₁) hz).trans h1).trans (near_end (g.bad (sub_sub a b B j hf')) hxf).symm).mono ?_
  omega

/-- An odd number of errors of an island makes a cluster active. -/
theorem Growth.island_active (g : Growth ns Es bd Er B lv G) (sc : Scales a b tau rho delta e) {j t : ℕ} (ht : t ≤ tau (j + 1))
    (X : ∀ v, XInv Es B a b rho lv j t v) (A : AInv ns Es bd Er B a b lv j t) {S : Finset (Sym2 N)} (hS : Isl Es B a b j S) {u : N} (hu : u ∈ ns)
    (hb : ∀ v, Cc Es (lv t) u v → ¬ bd v) (ho : Odd (tot ns Es (lv t) (Er ∩ S) u)) {v : N} (hv : Cc Es (lv t) u v) : G t v := by
  refine g.active t u hu hb ?_ v hv
  obtain ⟨w, _, hw, f, hf, hwf⟩ := tot_odd ho
  have h1 : Er = (Er \ El Es B a b j) ∪ (Er ∩ El Es B a b j) := (Finset.sdiff_union_inter _ _).symm
  have h2 : tot ns Es (lv t) (Er ∩ El Es B a b j) u = tot ns Es (lv t) (Er ∩ S) u := tot_congr fun x hx f' hf' => by
    rw [Finset.mem_inter, Finset.mem_inter]
    exact ⟨fun h => ⟨h.1, g.sep sc ht X hS (Finset.mem_inter.1 hf).2 hwf (hw.symm.trans hx) h.2 hf'⟩, fun h => ⟨h.1, hS.1 h.2⟩⟩
  rw [h1, tot_union (Finset.disjoint_sdiff_inter _ _), h2]
  exact (A u hb).add_odd ho

/-- Odd clusters at an island contain balls that grow. -/
theorem Growth.ball (g : Growth ns Es bd Er B lv G) (sc : Scales a b tau rho delta e) {j : ℕ}
    (X : ∀ t, tau j ≤ t → t ≤ tau (j + 1) → ∀ v, XInv Es B a b rho lv j t v) (A : ∀ t, tau j ≤ t → AInv ns Es bd Er B a b lv j t)
    {S : Finset (Sym2 N)} (hS : Isl Es B a b j S) : ∀ n, n ≤ a j + 2 → ∀ u ∈ ns, (∀ v, Cc Es (lv (tau j + 2 * n)) u v → ¬ bd v) →
    Odd (tot ns Es (lv (tau j + 2 * n)) (Er ∩ S) u) →
    ∃ v, (∃ f ∈ S, v ∈ f) ∧ ∀ x, Near Es n v x → Cc Es (lv (tau j + 2 * n)) u x
  | 0, _, u, _, _, ho => by
    obtain ⟨v, _, hv, f, hf, hvf⟩ := tot_odd ho
    refine ⟨v, ⟨f, (Finset.mem_inter.1 hf).2, hvf⟩, fun x hx => ?_⟩
    have : v = x := hx
    rw [← this]
    exact hv
  | n + 1, hn, u, hu, hb, ho => by
    have hs := sc.tau_succ j
    have e2 : tau j + 2 * (n + 1) = tau j + 2 * n + 1 + 1 := by ring
    rw [e2] at hb ho ⊢
    set t := tau j + 2 * n with ht
    obtain ⟨w, hwn, hw, how⟩ := g.odd_earlier (Nat.le_succ (t + 1)) ho
    obtain ⟨y, hyn, hy, hoy⟩ := g.odd_earlier (Nat.le_succ t) how
    have hbw : ∀ v, Cc Es (lv (t + 1)) w v → ¬ bd v := fun v hv => hb v (hw.trans (g.cc_mono (Nat.le_succ _) hv))
    have hby : ∀ v, Cc Es (lv t) y v → ¬ bd v := fun v hv => hbw v (hy.trans (g.cc_mono (Nat.le_succ _) hv))
    obtain ⟨v, hv, hball⟩ := Growth.ball g sc X A hS n (by omega) y hyn hby hoy
    refine ⟨v, hv, fun x hx => ?_⟩
    have hin : ∀ x, Near Es n v x → Cc Es (lv (t + 1 + 1)) u x := fun x hx =>
      hw.trans ((g.cc_mono (Nat.le_succ _) hy).trans (g.cc_mono (by omega) (hball x hx)))
    rcases hx with hx | ⟨z, hz, hzx⟩
    · exact hin x hx
    · refine (hin z hz).tail ⟨hzx, ?_⟩
      have a1 : G t z := g.island_active sc (by omega) (X t (by omega) (by omega)) (A t (by omega)) hS hyn hby hoy (hball z hz)
      have a2 : G (t + 1) z := g.island_active sc (by omega) (X (t + 1) (by omega) (by omega)) (A (t + 1) (by omega)) hS hwn hbw how
        (hy.trans (g.cc_mono (Nat.le_succ _) (hball z hz)))
      rw [g.step (t + 1) z x hzx, g.step t z x hzx, if_pos a1, if_pos a2]
      omega

theorem Growth.neutral (g : Growth ns Es bd Er B lv G) (sc : Scales a b tau rho delta e) {j : ℕ}
    (X : ∀ t, tau j ≤ t → t ≤ tau (j + 1) → ∀ v, XInv Es B a b rho lv j t v) (A : ∀ t, tau j ≤ t → AInv ns Es bd Er B a b lv j t)
    {S : Finset (Sym2 N)} (hS : Isl Es B a b j S) {u : N} (hu : u ∈ ns) (hb : ∀ v, Cc Es (lv (tau (j + 1))) u v → ¬ bd v) :
    Even (tot ns Es (lv (tau (j + 1))) (Er ∩ S) u) := by
  by_contra ho
  rw [Nat.not_even_iff_odd] at ho
  have hmem : ∀ f ∈ S, f ∈ Es := fun f hf => hS.mem g hf
  refine Nat.not_even_iff_odd.2 ho (tot_even (fun f hf hd => ?_) fun f hf x hx => ?_)
  · induction f using Sym2.ind with
    | _ p q => exact (g.ends p q (hmem _ (Finset.mem_inter.1 hf).2)).2 hd
  · have hf := (Finset.mem_inter.1 hf).2
    refine ⟨g.mem_ns (hmem f hf) hx, ?_⟩
    rw [sc.tau_succ j] at hb ho ⊢
    obtain ⟨v, ⟨f₀, hf₀, hv⟩, hball⟩ := g.ball sc X A hS (a j + 2) le_rfl u hu hb ho
    refine hball x (((near_end (hmem f₀ hf₀) hv).symm.trans ((hS.2.1 f₀ hf₀ f hf).trans (near_end (hmem f hf) hx))).mono ?_)
    omega

/-- The invariants on all scales. -/
theorem Growth.all (g : Growth ns Es bd Er B lv G) (sc : Scales a b tau rho delta e) : ∀ j,
    (∀ t, tau j ≤ t → AInv ns Es bd Er B a b lv j t) ∧ ∀ t, tau j ≤ t → ∀ v, XInv Es B a b rho lv j t v := by
  have up : ∀ j, (tau j = 0 → j = 0) → AInv ns Es bd Er B a b lv j (tau j) → (∀ v, XInv Es B a b rho lv j (tau j) v) →
      (∀ t, tau j ≤ t → AInv ns Es bd Er B a b lv j t) ∧ ∀ t, tau j ≤ t → ∀ v, XInv Es B a b rho lv j t v := by
    intro j hj A X
    have hA : ∀ t, tau j ≤ t → AInv ns Es bd Er B a b lv j t := fun t ht => g.aInv_mono ht A
    refine ⟨hA, fun t ht => ?_⟩
    induction t, ht using Nat.le_induction with
    | base => exact X
    | succ t ht ih => exact g.xInv_step (hA t ht) (fun h => hj (by omega)) ih
  intro j
  induction j with
  | zero =>
    refine up 0 (fun _ => rfl) ?_ ?_
    · intro u _
      have : Er \ El Es B a b 0 = ∅ := Finset.sdiff_eq_empty_iff_subset.2 g.error
      rw [this]
      by_contra ho
      obtain ⟨v, _, _, f, hf, _⟩ := tot_odd (Nat.not_even_iff_odd.1 ho)
      simp at hf
    · rw [sc.tau_zero]
      exact g.xInv_zero
  | succ j ih =>
    obtain ⟨hA, hX⟩ := ih
    have hs := sc.tau_succ j
    have hXt := hX (tau (j + 1)) (by omega)
    have hsub : El Es B a b (j + 1) ⊆ El Es B a b j := sub_succ a b B j
    -- a cluster that touches an edge that is left touches no island
    have hno : ∀ {u v w : N} {f f' : Sym2 N}, Cc Es (lv (tau (j + 1))) v w → f ∈ El Es B a b j → v ∈ f → f' ∈ El Es B a b (j + 1) → w ∈ f' →
        f ∈ El Es B a b (j + 1) := by
      intro _ v w f f' hvw hf hv hf' hw
      by_contra hc
      obtain ⟨S, hfS, hS⟩ := removed hf hc
      exact island_removed hS (g.sep sc le_rfl hXt hS hfS hv hvw (hsub hf') hw) hf'
    refine up (j + 1) (by omega) ?_ ?_
    · intro u hb
      by_cases hu : u ∈ ns
      · by_cases h1 : Touch Es (lv (tau (j + 1))) (El Es B a b j \ El Es B a b (j + 1)) u
        · obtain ⟨w, hw, f, hf, hwf⟩ := h1
          rw [Finset.mem_sdiff] at hf
          obtain ⟨S, hfS, hS⟩ := removed hf.1 hf.2
          have h2 : tot ns Es (lv (tau (j + 1))) (Er \ El Es B a b (j + 1)) u =
              tot ns Es (lv (tau (j + 1))) ((Er \ El Es B a b j) ∪ (Er ∩ S)) u := tot_congr fun x hx f' hf' => by
            rw [Finset.mem_union, Finset.mem_sdiff, Finset.mem_sdiff, Finset.mem_inter]
            constructor
            · rintro ⟨h3, h4⟩
              by_cases h5 : f' ∈ El Es B a b j
              · exact Or.inr ⟨h3, g.sep sc le_rfl hXt hS hfS hwf (hw.symm.trans hx) h5 hf'⟩
              · exact Or.inl ⟨h3, h5⟩
            · rintro (⟨h3, h4⟩ | ⟨h3, h4⟩)
              · exact ⟨h3, fun h => h4 (hsub h)⟩
              · exact ⟨h3, island_removed hS h4⟩
          rw [h2, tot_union]
          · exact (hA _ (by omega) u hb).add (g.neutral sc (fun t h _ => hX t h) hA hS hu hb)
          · rw [Finset.disjoint_left]
            intro f' h3 h4
            exact (Finset.mem_sdiff.1 h3).2 (hS.1 (Finset.mem_inter.1 h4).2)
        · have h2 : tot ns Es (lv (tau (j + 1))) (Er \ El Es B a b (j + 1)) u = tot ns Es (lv (tau (j + 1))) (Er \ El Es B a b j) u :=
            tot_congr fun x hx f' hf' => by
              rw [Finset.mem_sdiff, Finset.mem_sdiff]
              refine ⟨fun h => ⟨h.1, fun h3 => h1 ⟨x, hx, f', Finset.mem_sdiff.2 ⟨h3, h.2⟩, hf'⟩⟩, fun h => ⟨h.1, fun h3 => h.2 (hsub h3)⟩⟩
          rw [h2]
          exact hA _ (by omega) u hb
      · have : tot ns Es (lv (tau (j + 1))) (Er \ El Es B a b (j + 1)) u = 0 := by
          classical
          refine Finset.sum_eq_zero fun v hv => ?_
          have hv := Finset.mem_filter.1 hv
          exact absurd (g.cc_mem hv.1 hv.2.symm) hu
        rw [this]
        exact Even.zero
    · intro v
      rcases hXt v with ⟨w, h1, ⟨f, hf, hwf⟩, m, hm, p⟩ | ⟨h1, h2⟩
      · by_cases hf' : f ∈ El Es B a b (j + 1)
        · exact Or.inl ⟨w, h1, ⟨f, hf', hwf⟩, m, hm, p.mono (Nat.le_succ j)⟩
        · right
          obtain ⟨S, hfS, hS⟩ := removed hf hf'
          refine ⟨?_, Or.inr ⟨j, Nat.lt_succ_self j, S, hS, fun x hx => g.near_island sc le_rfl hXt hS hfS hwf (h1.symm.trans hx)⟩⟩
          rintro ⟨x, hx, f₂, hf₂, hxf⟩
          exact hf' (hno (u := x) (h1.symm.trans hx) hf hwf hf₂ hxf)
      · right
        refine ⟨fun ⟨w, hw, f, hf, hwf⟩ => h1 ⟨w, hw, f, hsub hf, hwf⟩, ?_⟩
        rcases h2 with h2 | ⟨i, hi, S, hS, h2⟩
        · exact Or.inl h2
        · exact Or.inr ⟨i, by omega, S, hS, h2⟩

/-- If only islands of `k` scales are bad, then what is connected by bad and grown edges is not far apart. -/
theorem Growth.local (g : Growth ns Es bd Er B lv G) (sc : Scales a b tau rho delta e) {k : ℕ} (hk : El Es B a b k = ∅) {t : ℕ} (ht : tau k ≤ t)
    {u v : N} (h : Relation.ReflTransGen (fun x y => s(x, y) ∈ B ∨ s(x, y) ∈ Es ∧ lv t s(x, y) = 2) u v) : Near Es (e k) u v := by
  have hX := (g.all sc k).2 t ht
  have hlev : ∀ f ∈ B, ∃ i < k, ∃ S, Isl Es B a b i S ∧ f ∈ S := by
    intro f hf
    have : ∀ n, n ≤ k → f ∈ El Es B a b n ∨ ∃ i < n, ∃ S, Isl Es B a b i S ∧ f ∈ S := by
      intro n
      induction n with
      | zero => exact fun _ => Or.inl hf
      | succ n ih =>
        intro hn
        rcases ih (by omega) with h | ⟨i, hi, h⟩
        · by_cases h' : f ∈ El Es B a b (n + 1)
          · exact Or.inl h'
          · obtain ⟨S, h1, h2⟩ := removed h h'
            exact Or.inr ⟨n, by omega, S, h2, h1⟩
        · exact Or.inr ⟨i, by omega, h⟩
    rcases this k le_rfl with h | h
    · rw [hk] at h
      simp at h
    · exact h
  have p : Path Es (Isl Es B a b) rho k 0 u v := by
    induction h with
    | refl => exact .refl _
    | @tail x y _ hxy ih =>
      rcases hxy with hxy | hxy
      · obtain ⟨i, hi, S, hS, hf⟩ := hlev _ hxy
        exact .hop ih hi hS ⟨_, hf, x, Sym2.mem_mk_left _ _, (Near.refl x).mono (Nat.zero_le _)⟩
          ⟨_, hf, y, Sym2.mem_mk_right _ _, (Near.refl y).mono (Nat.zero_le _)⟩
      · have hc : Cc Es (lv t) x y := .single hxy
        rcases hX x with ⟨w, _, ⟨f, hf, _⟩, _⟩ | ⟨_, h2 | ⟨i, hi, S, hS, h2⟩⟩
        · rw [hk] at hf
          simp at hf
        · rw [h2 y hc]
          exact ih
        · exact .hop ih hi hS (h2 x .refl) (h2 y hc)
  simpa using g.path_near sc p

/-- By then, nothing is active. -/
theorem Growth.stops (g : Growth ns Es bd Er B lv G) (sc : Scales a b tau rho delta e) {k : ℕ} (hk : El Es B a b k = ∅) {t : ℕ} (ht : tau k ≤ t)
    (u : N) : ¬ G t u := by
  intro hG
  have h0 : t = 0 → k = 0 := by
    intro h
    cases k with
    | zero => rfl
    | succ k =>
      have := sc.tau_succ k
      omega
  obtain ⟨v, _, f, hf, _⟩ := g.touches ((g.all sc k).1 t ht) h0 hG
  rw [hk] at hf
  simp at hf

end

end Flamingpy.Sparse
