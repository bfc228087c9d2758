import Mathlib.Data.Sym.Sym2
import Mathlib.Data.Finset.Prod
import Mathlib.Data.Finset.Union
import Mathlib.Algebra.Order.BigOperators.Group.Finset
import Mathlib.Tactic.Linarith
import Mathlib.Tactic.Ring

/-!
# Sparse sets: islands of an error on many scales

For C85: a set of bad edges splits into islands, small and far from the rest on their scale, and what is left when a number of scales have been removed
is unlikely to contain anything.
-/

namespace Flamingpy.Sparse

variable {Q : Type} [DecidableEq Q]

/-- Distances given by the relations "at most `r` apart". -/
structure Metric (near : ℕ → Q → Q → Prop) : Prop where
  refl : ∀ x, near 0 x x
  symm : ∀ r x y, near r x y → near r y x
  mono : ∀ r s x y, r ≤ s → near r x y → near s x y
  trans : ∀ r s x y z, near r x y → near s y z → near (r + s) x z

/-- A part of `E` of diameter at most `a`, with a distance of more than `b` to the rest. -/
def Island (near : ℕ → Q → Q → Prop) (a b : ℕ) (E S : Finset Q) : Prop :=
  S ⊆ E ∧ (∀ x ∈ S, ∀ y ∈ S, near a x y) ∧ ∀ x ∈ S, ∀ y ∈ E, y ∉ S → ¬ near b x y

open Classical in
/-- What is left without the islands. -/
noncomputable def rest (near : ℕ → Q → Q → Prop) (a b : ℕ) (E : Finset Q) : Finset Q := E.filter fun x => ¬ ∃ S, x ∈ S ∧ Island near a b E S

/-- What is left without the islands of `k` scales. -/
noncomputable def sub (near : ℕ → Q → Q → Prop) (a b : ℕ → ℕ) (E : Finset Q) : ℕ → Finset Q
  | 0 => E
  | k + 1 => rest near (a k) (b k) (sub near a b E k)

variable {near : ℕ → Q → Q → Prop}

theorem sub_succ (a b : ℕ → ℕ) (E : Finset Q) (k : ℕ) : sub near a b E (k + 1) ⊆ sub near a b E k := by
  classical
  exact Finset.filter_subset _ _

theorem sub_sub (a b : ℕ → ℕ) (E : Finset Q) : ∀ k, sub near a b E k ⊆ E
  | 0 => Finset.Subset.refl _
  | k + 1 => (sub_succ a b E k).trans (sub_sub a b E k)

/-- Who is removed is in an island. -/
theorem removed {a b : ℕ → ℕ} {E : Finset Q} {k : ℕ} {x : Q} (h : x ∈ sub near a b E k) (h' : x ∉ sub near a b E (k + 1)) :
    ∃ S, x ∈ S ∧ Island near (a k) (b k) (sub near a b E k) S := by
  classical
  by_contra hc
  exact h' (Finset.mem_filter.2 ⟨h, hc⟩)

/-- Members of islands are removed. -/
theorem island_removed {a b : ℕ → ℕ} {E : Finset Q} {k : ℕ} {S : Finset Q} (h : Island near (a k) (b k) (sub near a b E k) S) {x : Q} (hx : x ∈ S) :
    x ∉ sub near a b E (k + 1) := by
  classical
  exact fun hc => (Finset.mem_filter.1 hc).2 ⟨S, hx, h⟩

/-- Islands are equal or far apart. -/
theorem island_eq (M : Metric near) {a b : ℕ} (hab : a ≤ b) {E S S' : Finset Q} (h : Island near a b E S) (h' : Island near a b E S') {x y : Q}
    (hx : x ∈ S) (hy : y ∈ S') (hn : near b x y) : S = S' := by
  have key : ∀ {S S' : Finset Q}, Island near a b E S → Island near a b E S' → ∀ {x y : Q}, x ∈ S → y ∈ S' → near b x y → S' ⊆ S := by
    intro S S' h h' x y hx hy hn z hz
    have hyS : y ∈ S := by
      by_contra hc
      exact h.2.2 x hx y (h'.1 hy) hc hn
    by_contra hc
    exact h.2.2 y hyS z (h'.1 hz) hc (M.mono _ _ _ _ hab (h'.2.1 y hy z hz))
  exact Finset.Subset.antisymm (key h' h hy hx (M.symm _ _ _ hn)) (key h h' hx hy hn)

/-- Who is left has a partner. -/
theorem partner (M : Metric near) {a b h : ℕ} (ha : 2 * h ≤ a) {E : Finset Q} {x : Q} (hx : x ∈ rest near a b E) :
    ∃ z ∈ E, ¬ near h x z ∧ near (h + b) x z := by
  classical
  obtain ⟨hxE, hno⟩ := Finset.mem_filter.1 hx
  by_contra hc
  push Not at hc
  refine hno ⟨E.filter fun y => near h x y, Finset.mem_filter.2 ⟨hxE, M.mono _ _ _ _ (Nat.zero_le _) (M.refl x)⟩, Finset.filter_subset _ _, ?_, ?_⟩
  · intro y hy z hz
    exact M.mono _ _ _ _ (by omega) (M.trans _ _ _ _ _ (M.symm _ _ _ (Finset.mem_filter.1 hy).2) (Finset.mem_filter.1 hz).2)
  · intro y hy z hz hzn hb
    have h1 : ¬ near h x z := fun h1 => hzn (Finset.mem_filter.2 ⟨hz, h1⟩)
    exact hc z hz h1 (M.trans _ _ _ _ _ (Finset.mem_filter.1 hy).2 hb)

open Classical in
/-- Sets of bad elements that explain why something is left: binary trees. -/
noncomputable def expl (near : ℕ → Q → Q → Prop) (U : Finset Q) (h b : ℕ → ℕ) : ℕ → Q → Finset (Finset Q)
  | 0, x => {{x}}
  | k + 1, x => (U.filter fun z => near (h k + b k) x z ∧ ¬ near (h k) x z).biUnion fun z =>
      (expl near U h b k x ×ˢ expl near U h b k z).image fun p => p.1 ∪ p.2

theorem mem_expl_succ {U : Finset Q} {h b : ℕ → ℕ} {k : ℕ} {x : Q} {A : Finset Q} : A ∈ expl near U h b (k + 1) x ↔
    ∃ z ∈ U, near (h k + b k) x z ∧ ¬ near (h k) x z ∧ ∃ A₁ ∈ expl near U h b k x, ∃ A₂ ∈ expl near U h b k z, A₁ ∪ A₂ = A := by
  classical
  simp only [expl, Finset.mem_biUnion, Finset.mem_filter, Finset.mem_image, Finset.mem_product, Prod.exists]
  constructor
  · rintro ⟨z, ⟨h1, h2, h3⟩, A₁, A₂, ⟨h4, h5⟩, h6⟩
    exact ⟨z, h1, h2, h3, A₁, h4, A₂, h5, h6⟩
  · rintro ⟨z, h1, h2, h3, A₁, h4, A₂, h5, h6⟩
    exact ⟨z, ⟨h1, h2, h3⟩, A₁, A₂, ⟨h4, h5⟩, h6⟩

/-- Who is left after `k` scales has an explanation. -/
theorem explained (M : Metric near) {a b h : ℕ → ℕ} (ha : ∀ k, 2 * h k ≤ a k) {E U : Finset Q} (hU : E ⊆ U) :
    ∀ k x, x ∈ sub near a b E k → ∃ A ∈ expl near U h b k x, A ⊆ E
  | 0, x, hx => ⟨{x}, Finset.mem_singleton_self _, by rw [Finset.singleton_subset_iff]; exact hx⟩
  | k + 1, x, hx => by
    obtain ⟨z, hz, h1, h2⟩ := partner M (ha k) hx
    obtain ⟨A₁, hA₁, hs₁⟩ := explained M ha hU k x (sub_succ a b E k hx)
    obtain ⟨A₂, hA₂, hs₂⟩ := explained M ha hU k z hz
    exact ⟨A₁ ∪ A₂, mem_expl_succ.2 ⟨z, hU (sub_sub a b E k hz), h2, h1, A₁, hA₁, A₂, hA₂, rfl⟩, Finset.union_subset hs₁ hs₂⟩

theorem expl_near (M : Metric near) {U : Finset Q} {h b r : ℕ → ℕ} (hr : ∀ k, r k + h k + b k ≤ r (k + 1)) :
    ∀ k x, ∀ A ∈ expl near U h b k x, ∀ y ∈ A, near (r k) x y
  | 0, x, A, hA, y, hy => by
    rw [expl, Finset.mem_singleton] at hA
    rw [hA, Finset.mem_singleton] at hy
    rw [hy]
    exact M.mono _ _ _ _ (Nat.zero_le _) (M.refl x)
  | k + 1, x, A, hA, y, hy => by
    obtain ⟨z, -, h1, -, A₁, hA₁, A₂, hA₂, rfl⟩ := mem_expl_succ.1 hA
    have := hr k
    rcases Finset.mem_union.1 hy with hy | hy
    · exact M.mono _ _ _ _ (by omega) (expl_near M hr k x A₁ hA₁ y hy)
    · exact M.mono _ _ _ _ (by omega) (M.trans _ _ _ _ _ h1 (expl_near M hr k z A₂ hA₂ y hy))

theorem expl_card (M : Metric near) {U : Finset Q} {h b r : ℕ → ℕ} (hr : ∀ k, r k + h k + b k ≤ r (k + 1)) (hh : ∀ k, 2 * r k ≤ h k) :
    ∀ k x, ∀ A ∈ expl near U h b k x, A.card = 2 ^ k
  | 0, x, A, hA => by
    rw [expl, Finset.mem_singleton] at hA
    rw [hA]
    rfl
  | k + 1, x, A, hA => by
    obtain ⟨z, -, -, h1, A₁, hA₁, A₂, hA₂, rfl⟩ := mem_expl_succ.1 hA
    have hd : Disjoint A₁ A₂ := by
      rw [Finset.disjoint_left]
      intro y h2 h3
      refine h1 (M.mono _ _ _ _ ?_ (M.trans _ _ _ _ _ (expl_near M hr k x A₁ hA₁ y h2) (M.symm _ _ _ (expl_near M hr k z A₂ hA₂ y h3))))
      have := hh k
      omega
    rw [Finset.card_union_of_disjoint hd, expl_card M hr hh k x A₁ hA₁, expl_card M hr hh k z A₂ hA₂]
    ring

/-- The number of explanations, if `vol k` elements are near. -/
def treeCount (vol : ℕ → ℕ) : ℕ → ℕ
  | 0 => 1
  | k + 1 => vol k * treeCount vol k ^ 2

open Classical in
theorem expl_count {U : Finset Q} {h b vol : ℕ → ℕ} (hv : ∀ k, ∀ x ∈ U, (U.filter fun z => near (h k + b k) x z).card ≤ vol k) :
    ∀ k, ∀ x ∈ U, (expl near U h b k x).card ≤ treeCount vol k
  | 0, x, _ => by rw [expl, Finset.card_singleton, treeCount]
  | k + 1, x, hx => by
    rw [expl, treeCount]
    refine Finset.card_biUnion_le.trans ?_
    calc _ ≤ ∑ _z ∈ U.filter fun z => near (h k + b k) x z ∧ ¬ near (h k) x z, treeCount vol k ^ 2 := by
            refine Finset.sum_le_sum fun z hz => Finset.card_image_le.trans ?_
            rw [Finset.card_product, pow_two]
            exact Nat.mul_le_mul (expl_count hv k x hx) (expl_count hv k z (Finset.mem_filter.1 hz).1)
      _ ≤ vol k * treeCount vol k ^ 2 := by
            rw [Finset.sum_const, smul_eq_mul]
            refine Nat.mul_le_mul_right _ ((Finset.card_le_card ?_).trans (hv k x hx))
            exact fun z hz => Finset.mem_filter.2 ⟨(Finset.mem_filter.1 hz).1, (Finset.mem_filter.1 hz).2.1⟩

/-! ### Graph distance -/

variable {N : Type} [DecidableEq N]

/-- At most `r` edges apart. -/
def Near (Es : Finset (Sym2 N)) : ℕ → N → N → Prop
  | 0, u, v => u = v
  | r + 1, u, v => Near Es r u v ∨ ∃ w, Near Es r u w ∧ s(w, v) ∈ Es

variable {Es : Finset (Sym2 N)}

theorem Near.refl (u : N) : Near Es 0 u u := rfl

theorem Near.mono {r s : ℕ} (h : r ≤ s) {u v : N} (hn : Near Es r u v) : Near Es s u v := by
  induction s, h using Nat.le_induction with
  | base => exact hn
  | succ s _ ih => exact Or.inl ih

theorem Near.edge {u v : N} (h : s(u, v) ∈ Es) : Near Es 1 u v := Or.inr ⟨u, rfl, h⟩

theorem Near.trans {r s : ℕ} {u v w : N} (h : Near Es r u v) (h' : Near Es s v w) : Near Es (r + s) u w := by
  induction s generalizing w with
  | zero =>
    cases h'
    exact h
  | succ s ih =>
    rcases h' with h' | ⟨x, h', he⟩
    · exact Or.inl (ih h')
    · exact Or.inr ⟨x, ih h', he⟩

theorem Near.symm {r : ℕ} {u v : N} (h : Near Es r u v) : Near Es r v u := by
  induction r generalizing v with
  | zero => exact Eq.symm h
  | succ r ih =>
    rcases h with h | ⟨w, h, he⟩
    · exact Or.inl (ih h)
    · have := (Near.edge (by rwa [Sym2.eq_swap] : s(v, w) ∈ Es)).trans (ih h)
      rwa [Nat.add_comm] at this

/-- The distance of edges, measured at one of their ends. -/
noncomputable def eNear (Es : Finset (Sym2 N)) (r : ℕ) (e e' : Sym2 N) : Prop := Near Es r e.out.1 e'.out.1

theorem eNear_metric : Metric (eNear Es) :=
  ⟨fun _ => rfl, fun _ _ _ h => h.symm, fun _ _ _ _ h h' => h'.mono h, fun _ _ _ _ _ h h' => h.trans h'⟩

/-- An end of an edge is next to its first end. -/
theorem near_end {e : Sym2 N} (he : e ∈ Es) {v : N} (hv : v ∈ e) : Near Es 1 e.out.1 v := by
  by_cases h : e.out.1 = v
  · exact Or.inl h
  · refine Near.edge ?_
    have := (Sym2.mem_and_mem_iff h).1 ⟨Sym2.out_fst_mem e, hv⟩
    rwa [← this]

/-- Near to a set of edges. -/
def NearS (Es : Finset (Sym2 N)) (r : ℕ) (S : Finset (Sym2 N)) (v : N) : Prop := ∃ e ∈ S, ∃ z ∈ e, Near Es r z v

/-- A path with `m` steps, and free moves within the surroundings of the islands of scales below `j`. -/
inductive Path (Es : Finset (Sym2 N)) (Isl : ℕ → Finset (Sym2 N) → Prop) (rho : ℕ → ℕ) (j : ℕ) : ℕ → N → N → Prop where
  | refl (u : N) : Path Es Isl rho j 0 u u
  | step {m : ℕ} {u v w : N} : Path Es Isl rho j m u v → s(v, w) ∈ Es → Path Es Isl rho j (m + 1) u w
  | hop {m : ℕ} {u v w : N} {i : ℕ} {S : Finset (Sym2 N)} : Path Es Isl rho j m u v → i < j → Isl i S →
      NearS Es (rho i) S v → NearS Es (rho i) S w → Path Es Isl rho j m u w

variable {Isl : ℕ → Finset (Sym2 N) → Prop} {rho : ℕ → ℕ}

theorem Path.mono {j j' : ℕ} (h : j ≤ j') {m : ℕ} {u v : N} (p : Path Es Isl rho j m u v) : Path Es Isl rho j' m u v := by
  induction p with
  | refl => exact .refl _
  | step _ he ih => exact .step ih he
  | hop _ hi hS hv hw ih => exact .hop ih (lt_of_lt_of_le hi h) hS hv hw

/-- Free moves do not help much: the islands of a scale are far apart. -/
theorem Path.bound {delta e : ℕ → ℕ} (hdel : ∀ i S u v, Isl i S → NearS Es (rho i) S u → NearS Es (rho i) S v → Near Es (delta i) u v)
    (he : ∀ i, 2 * e i + delta i ≤ e (i + 1))
    (hsep : ∀ i S S' u v, Isl i S → Isl i S' → NearS Es (rho i) S u → NearS Es (rho i) S' v → Near Es (2 * e i + delta i) u v → S = S') :
    ∀ (j m : ℕ) (u v : N), Path Es Isl rho j m u v → Near Es (2 ^ j * m + e j) u v
  | 0, m, u, v, p => by
    have : Near Es m u v := by
      induction p with
      | refl => exact rfl
      | step _ he ih => exact ih.trans (Near.edge he)
      | hop _ hi _ _ _ _ => exact absurd hi (by omega)
    exact this.mono (by omega)
  | j + 1, m, u, v, p => by
    have IH := fun m u v => Path.bound hdel he hsep j m u v
    have key : Path Es Isl rho j m u v ∨ ∃ S m₀ m₁ z, m₀ + m₁ = m ∧ Isl j S ∧ NearS Es (rho j) S z ∧
        (∀ x, NearS Es (rho j) S x → Near Es (2 ^ (j + 1) * m₀ + e j + delta j) u x) ∧ Path Es Isl rho j m₁ z v := by
      induction p with
      | refl => exact Or.inl (.refl _)
      | step _ hs ih =>
        rcases ih with ih | ⟨S, m₀, m₁, z, rfl, h1, h2, h3, h4⟩
        · exact Or.inl (.step ih hs)
        · exact Or.inr ⟨S, m₀, m₁ + 1, z, rfl, h1, h2, h3, .step h4 hs⟩
      | @hop m u v w i S' _ hi hS hv hw ih =>
        rcases Nat.lt_succ_iff_lt_or_eq.1 hi with hi | rfl
        · rcases ih with ih | ⟨S, m₀, m₁, z, rfl, h1, h2, h3, h4⟩
          · exact Or.inl (.hop ih hi hS hv hw)
          · exact Or.inr ⟨S, m₀, m₁, z, rfl, h1, h2, h3, .hop h4 hi hS hv hw⟩
        · refine Or.inr ?_
          have hp : 2 ^ (i + 1) = 2 * 2 ^ i := by ring
          rcases ih with ih | ⟨S, m₀, m₁, z, rfl, h1, h2, h3, h4⟩
          · refine ⟨S', m, 0, w, rfl, hS, hw, fun x hx => ?_, .refl _⟩
            refine ((IH m u v ih).trans (hdel i S' v x hS hv hx)).mono ?_
            have : 2 ^ i * m ≤ 2 ^ (i + 1) * m := Nat.mul_le_mul_right _ (by omega)
            omega
          · by_cases hSS : S = S'
            · subst hSS
              refine ⟨S, m₀ + m₁, 0, w, rfl, hS, hw, fun x hx => (h3 x hx).mono ?_, .refl _⟩
              rw [Nat.mul_add]
              omega
            · refine ⟨S', m₀ + m₁, 0, w, rfl, hS, hw, fun x hx => ?_, .refl _⟩
              have h5 := IH m₁ z v h4
              have h6 : ¬ (2 ^ i * m₁ + e i ≤ 2 * e i + delta i) := fun hle => hSS (hsep i S S' z v h1 hS h2 hv (h5.mono hle))
              refine (((h3 z h2).trans h5).trans (hdel i S' v x hS hv hx)).mono ?_
              rw [Nat.mul_add, hp, Nat.mul_assoc, Nat.mul_assoc]
              omega
    have hp : 2 ^ (j + 1) = 2 * 2 ^ j := by ring
    have hj := he j
    rcases key with ih | ⟨S, m₀, m₁, z, rfl, h1, h2, h3, h4⟩
    · refine (IH m u v ih).mono ?_
      rw [hp, Nat.mul_assoc]
      omega
    · refine ((h3 z h2).trans (IH m₁ z v h4)).mono ?_
      rw [Nat.mul_add, hp, Nat.mul_assoc, Nat.mul_assoc]
      omega

end Flamingpy.Sparse
