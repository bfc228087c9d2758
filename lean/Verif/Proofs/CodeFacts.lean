import Verif.Proofs.Decoder
import Verif.Spec.Code
import Mathlib.Data.List.Count
import Mathlib.Data.List.Perm.Basic

/-! # Facts about constructed codes used by the statements C25-C33, C52 -/

namespace Flamingpy.SurfaceCode

open Flamingpy

theorem IsCode.ok {code : Code} (h : IsCode code) : CodeOk code ∧ ∀ i, 2 ≤ code.dims i := by
  obtain ⟨o, ec, b, dims, pol, hd, hc⟩ := h
  obtain ⟨code', hc', h1, h2, h3, hok⟩ := surfaceCode_ok o ec b hd pol
  rw [hc] at hc'
  obtain rfl := Option.some.inj hc'
  exact ⟨hok, by rw [h1]; exact hd⟩

theorem countP_forall₂ {α β : Type} {R : α → β → Prop} {l : List α} {m : List β} (h : List.Forall₂ R l m)
    {p : α → Bool} {q : β → Bool} (hpq : ∀ a b, a ∈ l → R a b → (p a = q b)) : m.countP q = l.countP p := by
  induction h with
  | nil => rfl
  | cons hab _ ih =>
    rename_i a b l' m' _
    rw [List.countP_cons, List.countP_cons, ih fun a b ha => hpq a b (by simp [ha]),
      hpq a b (by simp) hab]

theorem countP_finset {α : Type} [DecidableEq α] {l : List α} (hl : l.Nodup) {s : Finset α}
    (h : ∀ a, a ∈ l ↔ a ∈ s) (p : α → Prop) [DecidablePred p] :
    l.countP (fun a => decide (p a)) = (s.filter p).card := by
  have hs : s = l.toFinset := by ext x; rw [List.mem_toFinset, h]
  rw [List.countP_eq_length_filter, hs]
  have : l.toFinset.filter p = (l.filter fun a => decide (p a)).toFinset := by
    ext x; simp
  rw [this, List.toFinset_card_of_nodup (hl.filter _)]

section
variable {code : Code} (h : CodeOk code)
include h

local notation "bds" => boundsOf code.ec code.boundaries

theorem CodeOk.count_stabs {x : V} (hx : x ∈ code.syndrome) :
    code.stabs.countP (fun s => decide (x ∈ s)) =
      ((cells code.ec code.dims bds).filter fun c => adjacent code.dims bds x c).card := by
  have hb := (mem_qubits.1 ((h.syndrome x).1 hx)).1
  rw [countP_forall₂ (p := fun c => decide (adjacent code.dims bds x c)) h.stabs]
  · exact countP_finset (centers_nodup _ _ _) (fun a => mem_centers_iff_cells) _
  · intro c s _ hs
    rw [decide_eq_decide, hs.2]
    exact ⟨fun h => ⟨hb, h⟩, fun h => h.2⟩

/-- The boundary points: none, or the low slice followed by the high slice. -/
theorem CodeOk.bound_cases :
    (code.boundaries ≠ .open ∧ code.boundPoints = []) ∨
    (code.boundaries = .open ∧ ∃ lo hi : List V, code.boundPoints = lo ++ hi ∧ lo.Nodup ∧ hi.Nodup ∧
      (∀ x, x ∈ lo ↔ x ∈ code.syndrome ∧ x (openAxis code.ec) = lowF code.ec) ∧
      (∀ x, x ∈ hi ↔ x ∈ code.syndrome ∧
        x (openAxis code.ec) = highF code.ec (code.dims (openAxis code.ec)))) := by
  obtain ⟨o, ho⟩ := h.bound
  rw [ho]
  unfold boundPointsOf
  cases hb : code.boundaries
  · right
    refine ⟨rfl, ?_⟩
    have hf : (List.finRange 3).find? (fun i => decide (boundsOf code.ec .open i = code.ec.toBd)) =
        some (openAxis code.ec) := by
      cases code.ec <;> decide
    simp only [hf]
    refine ⟨_, _, rfl, ?_, ?_, ?_, ?_⟩
    · exact ((o.perm 1 _).nodup_iff).2 ((List.nodup_dedup _).filter _)
    · exact ((o.perm 2 _).nodup_iff).2 ((List.nodup_dedup _).filter _)
    · intro x
      rw [(o.perm 1 _).mem_iff]
      unfold sliceCoords
      simp only [List.mem_filter, List.mem_dedup, decide_eq_true_eq]
      constructor
      · rintro ⟨⟨_, h1⟩, h2⟩; exact ⟨h2, by rw [h1]; cases code.ec <;> rfl⟩
      · rintro ⟨h1, h2⟩
        exact ⟨⟨(h.graphNodes x).2 (qubit_isNode ((h.syndrome x).1 h1)), by rw [h2]; cases code.ec <;> rfl⟩, h1⟩
    · intro x
      rw [(o.perm 2 _).mem_iff]
      unfold sliceCoords
      simp only [List.mem_filter, List.mem_dedup, decide_eq_true_eq]
      constructor
      · rintro ⟨⟨_, h1⟩, h2⟩; exact ⟨h2, by rw [h1]; cases code.ec <;> rfl⟩
      · rintro ⟨h1, h2⟩
        exact ⟨⟨(h.graphNodes x).2 (qubit_isNode ((h.syndrome x).1 h1)), by rw [h2]; cases code.ec <;> rfl⟩, h1⟩
  · left; exact ⟨by simp, rfl⟩
  · left; exact ⟨by simp, rfl⟩

/-- Membership of the list of boundary points. -/
theorem CodeOk.mem_bound (x : V) :
    x ∈ code.boundPoints ↔ x ∈ code.syndrome ∧ code.boundaries = .open ∧
      (x (openAxis code.ec) = lowF code.ec ∨
        x (openAxis code.ec) = highF code.ec (code.dims (openAxis code.ec))) := by
  rcases h.bound_cases with ⟨h1, h2⟩ | ⟨h1, lo, hi, h2, _, _, h3, h4⟩
  · rw [h2]; simp [h1]
  · rw [h2, List.mem_append, h3, h4]; simp only [h1]; tauto

/-- A qubit has one cell if it is a boundary point and two otherwise. -/
theorem CodeOk.count_eq (hd : ∀ i, 2 ≤ code.dims i) {x : V} (hx : x ∈ code.syndrome) :
    code.stabs.countP (fun s => decide (x ∈ s)) = if x ∈ code.boundPoints then 1 else 2 := by
  rw [h.count_stabs hx]
  obtain ⟨hb, i, hi⟩ := mem_qubits.1 ((h.syndrome x).1 hx)
  rw [card_cells_of_qubit hb hi]
  by_cases ho : bds i = code.ec.toBd
  · obtain ⟨ho1, ho2⟩ := (bds_open_iff _ _ _).1 ho
    have := nb_face_open (ec := code.ec) (ho ▸ hb i) (hd i) hi.1
    rw [ho, this]
    congr 1
    rw [eq_iff_iff, h.mem_bound, ← ho2]
    exact ⟨fun h => ⟨hx, ho1, h⟩, fun h => h.2.2⟩
  · rw [nb_face_closed (hb i) (hd i) hi.1 ho, if_neg]
    rw [h.mem_bound]
    rintro ⟨_, ho1, hlh⟩
    apply ho
    rw [bds_open_iff]
    refine ⟨ho1, ?_⟩
    apply (hi.unique _).symm
    rcases hlh with h | h <;> rw [h] <;> cases code.ec <;> simp [lowF, highF, facePar, cellPar]

/-- The two slices have the same size. -/
theorem CodeOk.slices_card (hd : ∀ i, 2 ≤ code.dims i) (hb : code.boundaries = .open) :
    ((qubits code.ec code.dims bds).filter fun x => x (openAxis code.ec) = lowF code.ec).card =
    ((qubits code.ec code.dims bds).filter fun x =>
      x (openAxis code.ec) = highF code.ec (code.dims (openAxis code.ec))).card := by
  set a := openAxis code.ec with ha
  have hax : bds a = code.ec.toBd := (bds_open_iff _ _ _).2 ⟨hb, ha⟩
  have hlow : inAxis (bds a) (code.dims a) (lowF code.ec) ∧ lowF code.ec % 2 = facePar code.ec := by
    have := hd a
    rw [hax]; cases code.ec <;> simp [Ec.toBd, inAxis, lowF, facePar, cellPar] <;> omega
  have hhigh : inAxis (bds a) (code.dims a) (highF code.ec (code.dims a)) ∧
      highF code.ec (code.dims a) % 2 = facePar code.ec := by
    have := hd a
    rw [hax]; cases code.ec <;> simp [Ec.toBd, inAxis, highF, facePar, cellPar] <;> omega
  have key : ∀ f g : ℤ, f % 2 = facePar code.ec → (inAxis (bds a) (code.dims a) g ∧ g % 2 = facePar code.ec) →
      ∀ x, x ∈ (qubits code.ec code.dims bds).filter (fun x => x a = f) →
        Function.update x a g ∈ (qubits code.ec code.dims bds).filter (fun x => x a = g) := by
    intro f g hf hg x hx
    rw [Finset.mem_filter, mem_qubits] at hx ⊢
    obtain ⟨⟨hxb, i, hi⟩, hxf⟩ := hx
    refine ⟨⟨inBox_update hxb hg.1, a, by simpa using hg.2, ?_⟩, by simp⟩
    have hia : a = i := hi.unique (by rw [hxf]; exact hf)
    subst hia
    intro j hj
    simpa [hj] using hi.2 j hj
  apply Finset.card_bij' (fun x _ => Function.update x a (highF code.ec (code.dims a)))
    (fun x _ => Function.update x a (lowF code.ec)) (key _ _ hlow.2 hhigh) (key _ _ hhigh.2 hlow)
  · intro x hx
    rw [Function.update_idem, ← (Finset.mem_filter.1 hx).2, Function.update_eq_self]
  · intro x hx
    rw [Function.update_idem, ← (Finset.mem_filter.1 hx).2, Function.update_eq_self]

end

/-! ### recovery -/

theorem flip_apply (bits : V → Bool) (q x : V) : flip bits q x = xor (bits x) (decide (x = q)) := by
  unfold flip
  by_cases h : x = q
  · subst h; simp
  · simp [h]

theorem recovery_list (nodes : List V) (qs : List V) (hq : ∀ q ∈ qs, q ∈ nodes) (bits : V → Bool) :
    recovery nodes (qs.map some) bits = some fun x => xor (bits x) (decide (Odd (qs.count x))) := by
  unfold recovery
  induction qs generalizing bits with
  | nil => simp
  | cons q qs ih =>
    rw [List.map_cons, List.foldlM_cons]
    simp only [if_pos (hq q (by simp))]
    rw [Option.bind_eq_bind, Option.bind_some, ih fun q' h => hq q' (by simp [h])]
    congr 1
    funext x
    rw [flip_apply, List.count_cons]
    by_cases hx : x = q
    · subst hx
      simp only [decide_true, Bool.xor_true, BEq.rfl, if_true, Nat.odd_add_one, decide_not]
      cases bits x <;> simp
    · simp [hx, Ne.symm hx]

theorem recovery_nodup (nodes : List V) (qs : List V) (hq : ∀ q ∈ qs, q ∈ nodes) (hn : qs.Nodup)
    (bits : V → Bool) :
    recovery nodes (qs.map some) bits = some fun x => xor (bits x) (decide (x ∈ qs)) := by
  rw [recovery_list nodes qs hq]
  congr 1
  funext x
  congr 1
  rw [decide_eq_decide]
  by_cases hx : x ∈ qs
  · rw [List.count_eq_one_of_mem hn hx]; simp [hx]
  · rw [List.count_eq_zero_of_not_mem hx]; simp [hx]

theorem parity_xor (a b : V → Bool) (s : List V) :
    parity (fun x => xor (a x) (b x)) s = xor (parity a s) (parity b s) := by
  rw [← b2z_inj, b2z_xor]
  simp only [parity_eq, b2z_foldl, b2z_xor]
  rw [List.sum_map_add]
  simp [b2z]

theorem parity_mem (p : V → Bool) (s : List V) : parity p s = decide (Odd (s.filter p).length) := by
  rw [parity_eq]
  suffices ∀ a, s.foldl (fun q x => xor q (p x)) a = xor a (decide (Odd (s.filter p).length)) by
    simpa using this false
  induction s with
  | nil => simp
  | cons x s ih =>
    intro a
    rw [List.foldl_cons, ih, List.filter_cons]
    by_cases hx : p x
    · simp only [hx, if_true, List.length_cons, Nat.odd_add_one, decide_not]
      cases a <;> simp
    · simp [hx]

end Flamingpy.SurfaceCode
