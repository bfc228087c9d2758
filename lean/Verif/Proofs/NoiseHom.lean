import Verif.Proofs.Noise
import Mathlib.Tactic.SplitIfs
import Mathlib.Data.Fintype.BigOperators

/-! # Homodyne measurements of a `CVLayer` -/

namespace Flamingpy.Noise

open Flamingpy

variable {P : Type} [DecidableEq P]

/-- Everything but the measurement results is the same. -/
structure Same (L L' : Layer P) : Prop where
  pts : L'.pts = L.pts
  adj : ∀ i j : ℕ, ∀ hi hj hi' hj', L'.adj ⟨i, hi'⟩ ⟨j, hj'⟩ = L.adj ⟨i, hi⟩ ⟨j, hj⟩
  delta : L'.delta = L.delta
  pSwap : L'.pSwap = L.pSwap
  order : L'.order = L.order
  perfect : L'.perfect = L.perfect
  states : L'.states = L.states
  state : L'.attrs.state = L.attrs.state

omit [DecidableEq P] in
theorem Same.refl (L : Layer P) : Same L L := ⟨rfl, fun _ _ _ _ _ _ => rfl, rfl, rfl, rfl, rfl, rfl, rfl⟩

omit [DecidableEq P] in
theorem Same.trans {L₁ L₂ L₃ : Layer P} (h : Same L₁ L₂) (h' : Same L₂ L₃) : Same L₁ L₃ :=
  ⟨h'.pts.trans h.pts, fun i j hi hj hi' hj' => (h'.adj i j (by rw [h.pts]; exact hi) (by rw [h.pts]; exact hj)
    hi' hj').trans (h.adj i j hi hj _ _), h'.delta.trans h.delta, h'.pSwap.trans h.pSwap, h'.order.trans h.order,
    h'.perfect.trans h.perfect, h'.states.trans h.states, h'.state.trans h.state⟩

/-- The homodyne outcomes of a quadrature. -/
def Attrs.hom (a : Attrs P) : Quad → P → Option ℝ
  | .q => a.homQ
  | .p => a.homP

theorem setHom_state (quad : Quad) (a : Attrs P) (p : P) (x : ℝ) : (setHom quad a p x).state = a.state := by
  cases quad <;> rfl

theorem setHom_bit (quad : Quad) (a : Attrs P) (p : P) (x : ℝ) : (setHom quad a p x).bit = a.bit := by
  cases quad <;> rfl

theorem setHom_hom (quad quad' : Quad) (a : Attrs P) (p p' : P) (x : ℝ) :
    (setHom quad a p x).hom quad' p' = if quad' = quad ∧ p' = p then some x else a.hom quad' p' := by
  cases quad <;> cases quad' <;> simp [setHom, Attrs.hom, Function.update_apply]

theorem recordOne_same {quad : Quad} {outcomes : List ℝ} {L L' : Layer P} {e : ℕ × ℕ}
    (h : recordOne quad outcomes L e = some L') : Same L L' ∧ L'.attrs.bit = L.attrs.bit := by
  unfold recordOne at h
  simp only [Option.bind_eq_bind, Option.bind_eq_some_iff] at h
  obtain ⟨p, _, x, _, h⟩ := h
  obtain rfl := Option.some.inj h
  exact ⟨⟨rfl, fun _ _ _ _ _ _ => rfl, rfl, rfl, rfl, rfl, rfl, setHom_state _ _ _ _⟩, setHom_bit _ _ _ _⟩

theorem record_same {quad : Quad} {outcomes : List ℝ} {l : List (ℕ × ℕ)} {L L' : Layer P}
    (h : l.foldlM (recordOne quad outcomes) L = some L') : Same L L' ∧ L'.attrs.bit = L.attrs.bit := by
  induction l generalizing L with
  | nil => obtain rfl := Option.some.inj h; exact ⟨Same.refl _, rfl⟩
  | cons e l ih =>
    rw [List.foldlM_cons, Option.bind_eq_bind, Option.bind_eq_some_iff] at h
    obtain ⟨L1, h1, h2⟩ := h
    have a := recordOne_same h1
    have b := ih h2
    exact ⟨a.1.trans b.1, b.2.trans a.2⟩

theorem measureHom_same {L L' : Layer P} {quad : Quad} {inds isArray m c propagate r}
    (h : measureHom L quad inds isArray m c propagate r = some L') : Same L L' ∧ L'.attrs.bit = L.attrs.bit := by
  unfold measureHom at h
  simp only [Option.bind_eq_bind, Option.bind_eq_some_iff] at h
  obtain ⟨means, _, covs, _, o, _, o', _, h⟩ := h
  exact record_same h

theorem innerDecoder_same {L L' : Layer P} {coords : List P} (h : innerDecoder L coords = some L') :
    Same L L' ∧ L'.attrs.homP = L.attrs.homP ∧ L'.attrs.homQ = L.attrs.homQ := by
  unfold innerDecoder at h
  induction coords generalizing L with
  | nil => obtain rfl := Option.some.inj h; exact ⟨Same.refl _, rfl, rfl⟩
  | cons p l ih =>
    rw [List.foldlM_cons, Option.bind_eq_bind, Option.bind_eq_some_iff] at h
    obtain ⟨L1, h1, h2⟩ := h
    rw [Option.map_eq_some_iff] at h1
    obtain ⟨x, _, rfl⟩ := h1
    have b := ih h2
    have a : Same L (setBit L p (Gkp.gkpBinner x)) := ⟨rfl, fun _ _ _ _ _ _ => rfl, rfl, rfl, rfl, rfl, rfl, rfl⟩
    exact ⟨a.trans b.1, b.2.1, b.2.2⟩

/-- The inner decoder bins every recorded value. -/
theorem innerDecoder_ok (L : Layer P) (coords : List P) (f : P → ℝ) (h : ∀ p ∈ coords, L.attrs.homP p = some (f p)) :
    ∃ L', innerDecoder L coords = some L' ∧
      ∀ p, L'.attrs.bit p = if p ∈ coords then some (Gkp.gkpBinner (f p)) else L.attrs.bit p := by
  unfold innerDecoder
  induction coords generalizing L with
  | nil => exact ⟨L, rfl, by simp⟩
  | cons p l ih =>
    rw [List.foldlM_cons, h p (by simp)]
    obtain ⟨L', h1, h2⟩ := ih (L := setBit L p (Gkp.gkpBinner (f p)))
      fun q hq => h q (by simp [hq])
    refine ⟨L', h1, fun q => ?_⟩
    rw [h2 q]
    by_cases hq : q ∈ l
    · simp [hq]
    · by_cases hp : q = p
      · subst hp; simp [hq, setBit]
      · simp [hq, hp, setBit]

/-- Recording outcomes that are a function of the index. -/
theorem record_ok (quad : Quad) (outcomes : List ℝ) (g : ℕ → ℝ) (l : List (ℕ × ℕ)) (L : Layer P)
    (hnd : L.pts.Nodup) (h : ∀ e ∈ l, e.1 < L.pts.length ∧ outcomes[e.2]? = some (g e.1)) :
    ∃ L', l.foldlM (recordOne quad outcomes) L = some L' ∧
      (∀ i (hi : i < L.pts.length), L'.attrs.hom quad L.pts[i] =
        if i ∈ l.map (·.1) then some (g i) else L.attrs.hom quad L.pts[i]) ∧
      (∀ quad', quad' ≠ quad → L'.attrs.hom quad' = L.attrs.hom quad') := by
  induction l generalizing L with
  | nil => exact ⟨L, rfl, by simp, by simp⟩
  | cons e l ih =>
    obtain ⟨he, ho⟩ := h e (by simp)
    have h1 : recordOne quad outcomes L e = some { L with attrs := setHom quad L.attrs L.pts[e.1] (g e.1) } := by
      unfold recordOne
      rw [List.getElem?_eq_getElem he, ho]
      rfl
    rw [List.foldlM_cons, h1]
    obtain ⟨L', h2, h3, h4⟩ := ih { L with attrs := setHom quad L.attrs L.pts[e.1] (g e.1) } hnd
      fun e' he' => h e' (by simp [he'])
    refine ⟨L', h2, fun i hi => ?_, fun quad' hq => ?_⟩
    · rw [h3 i hi]
      simp only [List.map_cons, List.mem_cons]
      by_cases hm : i ∈ l.map (·.1)
      · simp only [hm, if_true, or_true]
      · simp only [hm, if_false, or_false]
        rw [setHom_hom]
        by_cases hie : i = e.1
        · subst hie
          simp
        · have : L.pts[i] ≠ L.pts[e.1] := by rwa [Ne, hnd.getElem_inj_iff]
          simp [hie, this]
    · rw [h4 quad' hq]
      funext p
      rw [setHom_hom]
      simp [hq]

/-! ### Vectors -/

theorem toList_length (n : ℕ) (a : ℕ → ℝ) : (toList n a).length = n := by simp [toList]

theorem toList_get (n : ℕ) (a : ℕ → ℝ) {i : ℕ} (h : i < n) : (toList n a)[i]? = some (a i) := by
  simp [toList, h]

theorem toList_getD (n : ℕ) (a : ℕ → ℝ) {i : ℕ} (h : i < n) : (toList n a).getD i 0 = a i := by
  rw [List.getD, toList_get n a h]; rfl

theorem assign_ok (len : ℕ) (a : ℕ → ℝ) (indices : List ℕ) (v : ℕ → ℝ) (h : ∀ i ∈ indices, i < len) :
    assign len a indices v = some fun i => if i ∈ indices then v i else a i := by
  unfold assign
  induction indices generalizing a with
  | nil => simp
  | cons i l ih =>
    rw [List.foldlM_cons, if_pos (h i (by simp))]
    refine Eq.trans (ih (Function.update a i (v i)) fun j hj => h j (by simp [hj])) ?_
    congr 1
    funext j
    by_cases hj : j ∈ l
    · simp [hj]
    · by_cases hji : j = i
      · subst hji; simp [hj]
      · simp [hj, hji]

theorem index_ok (a : List ℝ) (inds : List ℕ) (f : ℕ → ℝ) (h : ∀ i ∈ inds, a[i]? = some (f i)) :
    CvOps.index a inds = some (inds.map f) := by
  unfold CvOps.index
  induction inds with
  | nil => rfl
  | cons i l ih =>
    rw [List.mapM_cons, h i (by simp), ih fun j hj => h j (by simp [hj])]
    rfl

/-- The entries of `SCZ_apply`. -/
theorem sczList_ok {N : ℕ} (adj : Matrix (Fin N) (Fin N) ℝ) (f : ℕ → ℝ) :
    ∃ o, sczList adj (toList (2 * N) f) = some o ∧ o.length = 2 * N ∧
      (∀ i, i < N → (half N .q o)[i]? = some (f i)) ∧
      ∀ i (hi : i < N), (half N .p o)[i]? = some (f (N + i) + ∑ j : Fin N, adj ⟨i, hi⟩ j * f j) := by
  unfold sczList
  rw [if_pos (toList_length _ _)]
  have hv : quadVec N (toList (2 * N) f) = Sum.elim (fun i : Fin N => f i) fun i : Fin N => f (N + i) := by
    unfold quadVec
    congr 1
    · funext i; exact toList_getD _ _ (by omega)
    · funext i; exact toList_getD _ _ (by omega)
  rw [hv, CvOps.C07_apply_vector]
  refine ⟨_, rfl, by simp [ofQuadVec]; omega, ?_, ?_⟩
  · intro i hi
    simp only [half, ofQuadVec]
    rw [List.take_append_of_le_length (by simp), List.take_of_length_le (by simp)]
    simp [hi]
  · intro i hi
    simp only [half, ofQuadVec, Sum.elim_inl, Sum.elim_inr]
    have h0 : List.drop N (List.ofFn fun i : Fin N => f i) = [] := List.drop_eq_nil_of_le (by simp)
    rw [List.drop_append, h0]
    simp [hi]

theorem normal_ok (n : ℕ) (m c z : ℕ → ℝ) (hc : ∀ i, i < n → 0 ≤ c i) :
    normal (toList n m) (toList n c) z = some (toList n fun i => m i + c i * z i) := by
  unfold normal broadcast
  rw [if_pos (by rw [toList_length, toList_length])]
  have : ¬ ∃ x ∈ toList n c, x < 0 := by
    rintro ⟨x, hx, h0⟩
    unfold toList at hx
    rw [List.mem_map] at hx
    obtain ⟨i, hi, rfl⟩ := hx
    have := hc i (List.mem_range.1 hi)
    linarith
  rw [Option.bind_eq_bind, Option.bind_some, if_neg this]
  change some _ = some _
  congr 1
  apply List.ext_getElem?
  intro i
  by_cases hi : i < n
  · have hz : ((toList n m).zip (toList n c))[i]? = some (m i, c i) :=
      List.getElem?_zip_eq_some.2 ⟨toList_get _ _ hi, toList_get _ _ hi⟩
    rw [toList_get _ _ hi, List.getElem?_map, List.getElem?_zipIdx, hz]
    simp
  · rw [List.getElem?_eq_none (by simp [toList_length]; omega),
      List.getElem?_eq_none (by rw [toList_length]; omega)]

/-- Deviations in the initial order. -/
noncomputable def devs (L : Layer P) (ps gs : List ℕ) (i : ℕ) : ℝ :=
  if i < L.pts.length then
    if i ∈ L.perfect then 0 else if i ∈ gs then √(L.delta / 2) else if i ∈ ps then 1 / √(2 * L.delta) else 0
  else
    if i - L.pts.length ∈ L.perfect then 0
    else if i - L.pts.length ∈ gs then √(L.delta / 2) else if i - L.pts.length ∈ ps then √(L.delta / 2) else 0

omit [DecidableEq P] in
theorem devs_nonneg (L : Layer P) (ps gs : List ℕ) (i : ℕ) : 0 ≤ devs L ps gs i := by
  unfold devs
  split_ifs <;> positivity

omit [DecidableEq P] in
theorem covStep_ok (L : Layer P) (a : ℕ → ℝ) (psi : String) (l : List ℕ) (nq np : ℝ)
    (hq : PyDict.get? (noiseQ L.delta) psi = some nq) (hp : PyDict.get? (noiseP L.delta) psi = some np)
    (hl : ∀ i ∈ l, i < L.pts.length) :
    ∃ a', covStep L a (psi, l) = some a' ∧ ∀ i,
      a' i = if i < L.pts.length then (if i ∈ l ∧ i ∉ L.perfect then nq else a i)
        else (if i - L.pts.length ∈ l ∧ i - L.pts.length ∉ L.perfect then np else a i) := by
  unfold covStep
  simp only
  by_cases h : 0 < (l.filter fun i => decide (i ∉ L.perfect)).length
  · rw [if_pos h, hq, hp]
    simp only [Option.bind_eq_bind, Option.bind_some]
    rw [assign_ok _ _ _ _ (fun i hi => by have := hl i (List.mem_of_mem_filter hi); omega), Option.bind_some,
      assign_ok _ _ _ _ (fun i hi => by
        rw [List.mem_map] at hi
        obtain ⟨j, hj, rfl⟩ := hi
        have := hl j (List.mem_of_mem_filter hj); omega)]
    refine ⟨_, rfl, fun i => ?_⟩
    have h1 : ∀ i, i ∈ (l.filter fun i => decide (i ∉ L.perfect)) ↔ i ∈ l ∧ i ∉ L.perfect := by
      intro i; rw [List.mem_filter, decide_eq_true_eq]
    have h2 : ∀ i, i ∈ (l.filter fun i => decide (i ∉ L.perfect)).map (fun i => i + L.pts.length) ↔
        L.pts.length ≤ i ∧ i - L.pts.length ∈ l ∧ i - L.pts.length ∉ L.perfect := by
      intro i
      rw [List.mem_map]
      constructor
      · rintro ⟨j, hj, rfl⟩
        rw [Nat.add_sub_cancel]
        exact ⟨by omega, (h1 j).1 hj⟩
      · rintro ⟨h3, h4⟩
        exact ⟨_, (h1 _).2 h4, by omega⟩
    by_cases hi : i < L.pts.length
    · rw [if_neg (by rw [h2]; omega), if_pos hi]
      exact if_congr (h1 i) rfl rfl
    · have h3 : i ∉ (l.filter fun i => decide (i ∉ L.perfect)) := by
        rw [h1]; intro hh; have := hl i hh.1; omega
      rw [if_neg hi, if_neg h3]
      exact if_congr ((h2 i).trans ⟨fun hh => hh.2, fun hh => ⟨by omega, hh⟩⟩) rfl rfl
  · rw [if_neg h]
    refine ⟨a, rfl, fun i => ?_⟩
    have he : ∀ i, ¬(i ∈ l ∧ i ∉ L.perfect) := by
      rintro i ⟨h1, h2⟩
      apply h
      apply List.length_pos_of_mem (a := i)
      rw [List.mem_filter]
      exact ⟨h1, by simpa using h2⟩
    rw [if_neg (he _), if_neg (he _), ite_self]

omit [DecidableEq P] in
theorem covs_initial (L : Layer P) (ps gs : List ℕ) (hs : L.states = [("p", ps), ("GKP", gs)])
    (ho : L.order = .initial) (hd : 0 < L.delta) (hp : ∀ i ∈ ps, i < L.pts.length)
    (hg : ∀ i ∈ gs, i < L.pts.length) (inds : List ℕ) (isArray : Bool) :
    covsSampler L inds isArray = some (toList (2 * L.pts.length) (devs L ps gs)) := by
  unfold covsSampler
  simp only [ho, if_pos hd]
  obtain ⟨a, ha, ha'⟩ := covStep_ok L (fun _ => 0) "p" ps (1 / √(2 * L.delta)) (√(L.delta / 2))
    (by simp [PyDict.get?, noiseQ]) (by simp [PyDict.get?, noiseP]) hp
  obtain ⟨b, hb, hb'⟩ := covStep_ok L a "GKP" gs (√(L.delta / 2)) (√(L.delta / 2))
    (by simp [PyDict.get?, noiseQ]) (by simp [PyDict.get?, noiseP]) hg
  rw [hs, List.foldlM_cons, ha, Option.bind_eq_bind, Option.bind_some, List.foldlM_cons, hb,
    Option.bind_eq_bind, Option.bind_some]
  change some _ = some _
  congr 2
  funext i
  rw [hb' i, ha' i]
  unfold devs
  by_cases hi : i < L.pts.length
  · simp only [if_pos hi]
    by_cases h1 : i ∈ L.perfect
    · simp [h1]
    · by_cases h2 : i ∈ gs <;> by_cases h3 : i ∈ ps <;> simp [h1, h2, h3]
  · simp only [if_neg hi]
    by_cases h1 : i - L.pts.length ∈ L.perfect
    · simp [h1]
    · by_cases h2 : i - L.pts.length ∈ gs <;> by_cases h3 : i - L.pts.length ∈ ps <;> simp [h1, h2, h3]

/-- The ideal outcome of mode `i` in the initial order, for samples `x`. -/
noncomputable def entangled (L : Layer P) (x : ℕ → ℝ) (quad : Quad) (i : ℕ) : ℝ :=
  match quad with
  | .q => x i
  | .p => x (L.pts.length + i) +
      ∑ j : Fin L.pts.length, (if h : i < L.pts.length then L.adj ⟨i, h⟩ j else 0) * x j

/-- `measure_hom` in the initial order. -/
theorem measure_initial (L : Layer P) (hnd : L.pts.Nodup) (ps gs : List ℕ)
    (hs : L.states = [("p", ps), ("GKP", gs)]) (ho : L.order = .initial) (hd : 0 < L.delta)
    (hp : ∀ i ∈ ps, i < L.pts.length) (hg : ∀ i ∈ gs, i < L.pts.length) (quad : Quad)
    (inds : Option (List ℕ)) (isArray : Bool) (hi : ∀ i ∈ inds.getD (List.range L.pts.length), i < L.pts.length)
    (propagate : Bool) (r : Rnd) :
    ∃ L', measureHom L quad inds isArray none none propagate r = some L' ∧
      (∀ i (hlt : i < L.pts.length), L'.attrs.hom quad L.pts[i] =
        if i ∈ inds.getD (List.range L.pts.length) then
          some (entangled L (fun k => devs L ps gs k * r.z k) quad i)
        else L.attrs.hom quad L.pts[i]) ∧
      ∀ quad', quad' ≠ quad → L'.attrs.hom quad' = L.attrs.hom quad' := by
  set I := inds.getD (List.range L.pts.length) with hI
  obtain ⟨o, ho1, ho2, ho3, ho4⟩ := sczList_ok L.adj fun k => 0 + devs L ps gs k * r.z k
  have hidx : CvOps.index (half L.pts.length quad o) I =
      some (I.map (entangled L (fun k => devs L ps gs k * r.z k) quad)) := by
    apply index_ok
    intro i hiI
    have hlt := hi i hiI
    cases quad with
    | q => rw [ho3 i hlt]; simp [entangled]
    | p => rw [ho4 i hlt]; simp [entangled, hlt]
  obtain ⟨L', h1, h2, h3⟩ := record_ok quad (I.map (entangled L (fun k => devs L ps gs k * r.z k) quad))
    (entangled L (fun k => devs L ps gs k * r.z k) quad) I.zipIdx L hnd (by
      intro e he
      rw [List.mem_zipIdx_iff_getElem?] at he
      refine ⟨hi _ (List.mem_of_getElem? he), ?_⟩
      rw [List.getElem?_map, he]
      rfl)
  refine ⟨L', ?_, ?_, h3⟩
  · unfold measureHom
    simp only [← hI]
    have hm : meansSampler L propagate r = some (toList (2 * L.pts.length) fun _ => 0) := by
      unfold meansSampler
      simp only [ho]
      rfl
    simp only [Option.elim_none]
    rw [hm]
    simp only [Option.bind_eq_bind, Option.bind_some]
    rw [covs_initial L ps gs hs ho hd hp hg, Option.bind_some,
      normal_ok _ _ _ _ (fun i _ => devs_nonneg L ps gs i), Option.bind_some]
    have he : entangleOutcomes L quad I (toList (2 * L.pts.length) fun i => 0 + devs L ps gs i * r.z i) =
        some (I.map (entangled L (fun k => devs L ps gs k * r.z k) quad)) := by
      unfold entangleOutcomes
      simp only [ho]
      rw [ho1, Option.bind_some, hidx]
    rw [he, Option.bind_some]
    exact h1
  · intro i hlt
    rw [h2 i hlt]
    have : I.zipIdx.map (·.1) = I := by simp
    rw [this]

end Flamingpy.Noise
