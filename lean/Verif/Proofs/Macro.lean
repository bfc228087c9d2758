import Verif.Proofs.MacroReduce
import Verif.Props.Noise

/-! # One application of macronode noise -/

namespace Flamingpy.Noise

open Flamingpy

variable {P : Type} [DecidableEq P]

/-- The index of the neighbour of a micronode. -/
def nbI (M : Macro P) (i : ℕ) : Option ℕ :=
  (M.layer.pts[i]?).bind fun p => (M.nbrs p).head?.map fun w => M.layer.pts.idxOf w

theorem MacroOk.get {M : Macro P} {cs : List P} (h : MacroOk M cs) {i : ℕ} (hi : i < 4 * cs.length) :
    ∃ p, M.layer.pts[i]? = some p ∧ p ∈ M.layer.pts ∧ cs[i / 4]? = some (M.centre p) := by
  have hlt : i < M.layer.pts.length := by rw [h.len]; exact hi
  exact ⟨M.layer.pts[i], List.getElem?_eq_getElem hlt, List.getElem_mem hlt,
    h.centre i _ (List.getElem?_eq_getElem hlt)⟩

theorem MacroOk.nbI_cases {M : Macro P} {cs : List P} (h : MacroOk M cs) {i : ℕ} {p : P}
    (hp : M.layer.pts[i]? = some p) :
    (nbI M i = none ∧ M.nbrs p = []) ∨
    ∃ j q, nbI M i = some j ∧ M.layer.pts[j]? = some q ∧ M.nbrs p = [q] := by
  unfold nbI
  rw [hp, Option.bind_some]
  rcases h.nbrs p (List.mem_of_getElem? hp) with hn | ⟨q, hq, hn⟩
  · left; rw [hn]; exact ⟨rfl, rfl⟩
  · right
    rw [hn]
    refine ⟨_, q, rfl, ?_, rfl⟩
    rw [List.getElem?_eq_getElem (List.idxOf_lt_length_of_mem hq), List.getElem_idxOf]

/-- The weight of the edge at a micronode. -/
noncomputable def wI (M : Macro P) (j : ℕ) : ℝ :=
  if hj : j < M.layer.pts.length then
    (nbI M j).elim 1 fun i => if hi : i < M.layer.pts.length then M.layer.adj ⟨i, hi⟩ ⟨j, hj⟩ else 1
  else 1

/-- Neighbours are neighbours of each other. -/
theorem MacroOk.nbI_symm {M : Macro P} {cs : List P} (h : MacroOk M cs) {i j : ℕ} (hi : i < M.layer.pts.length)
    (hij : nbI M i = some j) : ∃ hj : j < M.layer.pts.length, nbI M j = some i ∧
      M.layer.pts[j] ∈ M.nbrs M.layer.pts[i] := by
  rcases h.nbI_cases (List.getElem?_eq_getElem hi) with ⟨h1, -⟩ | ⟨j', q, h1, h2, h3⟩
  · rw [h1] at hij; cases hij
  · rw [h1] at hij
    obtain rfl := Option.some.inj hij
    obtain ⟨hj, hq⟩ := List.getElem?_eq_some_iff.1 h2
    refine ⟨hj, ?_, by rw [h3, hq]; simp⟩
    have hs := h.sym _ (List.getElem_mem hi) q (by rw [h3]; simp)
    rcases h.nbI_cases h2 with ⟨-, e⟩ | ⟨i', p, e1, e2, e3⟩
    · rw [e] at hs; cases hs
    · rw [e3, List.mem_singleton] at hs
      obtain ⟨hi', hp⟩ := List.getElem?_eq_some_iff.1 e2
      rw [e1, h.nodup.getElem_inj_iff.1 (hp.trans hs.symm)]

theorem MacroOk.wI_eq {M : Macro P} {cs : List P} (h : MacroOk M cs) {i j : ℕ} (hi : i < M.layer.pts.length)
    (hij : nbI M i = some j) : ∃ hj : j < M.layer.pts.length, wI M j = M.layer.adj ⟨i, hi⟩ ⟨j, hj⟩ := by
  obtain ⟨hj, h1, -⟩ := h.nbI_symm hi hij
  refine ⟨hj, ?_⟩
  unfold wI
  rw [dif_pos hj, h1]
  simp [hi]

/-- Weights are one or minus one. -/
theorem MacroOk.wI_one {M : Macro P} {cs : List P} (h : MacroOk M cs) (j : ℕ) : wI M j = 1 ∨ wI M j = -1 := by
  by_cases hj : j < M.layer.pts.length
  · cases hn : nbI M j with
    | none => left; unfold wI; rw [dif_pos hj, hn]; rfl
    | some i =>
      obtain ⟨hi, h1, -⟩ := h.nbI_symm hj hn
      obtain ⟨hj2, -, h2⟩ := h.nbI_symm hi h1
      obtain ⟨hj3, h3⟩ := h.wI_eq hi h1
      rw [h3]
      exact h.adj1 _ _ h2
  · left; unfold wI; rw [dif_neg hj]

theorem MacroOk.adj_sum {M : Macro P} {cs : List P} (h : MacroOk M cs) (x : ℕ → ℝ) {i : ℕ}
    (hi : i < M.layer.pts.length) :
    ∑ j : Fin M.layer.pts.length, M.layer.adj ⟨i, hi⟩ j * x j = (nbI M i).elim 0 fun j => wI M j * x j := by
  rcases h.nbI_cases (List.getElem?_eq_getElem hi) with ⟨h1, h2⟩ | ⟨j, q, h1, h2, h3⟩
  · rw [h1]
    apply Finset.sum_eq_zero
    intro j _
    rw [h.adj0 _ _ (by simp [h2]), zero_mul]
  · obtain ⟨hj', hw⟩ := h.wI_eq hi h1
    rw [h1]
    obtain ⟨hj, hq⟩ := List.getElem?_eq_some_iff.1 h2
    rw [Finset.sum_eq_single ⟨j, hj⟩]
    · simp [hw]
    · intro k _ hk
      rw [h.adj0, zero_mul]
      simp only [Fin.getElem_fin, h3, List.mem_singleton]
      intro hc
      rw [← hq] at hc
      exact hk (Fin.ext (h.nodup.getElem_inj_iff.1 hc))
    · simp

open Classical in
/-- The weight as an integer. -/
noncomputable def wZ (M : Macro P) (j : ℕ) : ℤ := if wI M j = -1 then -1 else 1

theorem wZ_one (M : Macro P) (j : ℕ) : wZ M j = 1 ∨ wZ M j = -1 := by
  unfold wZ; split_ifs <;> simp

theorem MacroOk.wI_cast {M : Macro P} {cs : List P} (h : MacroOk M cs) (j : ℕ) : wI M j = (wZ M j : ℝ) := by
  unfold wZ
  rcases h.wI_one j with h1 | h1
  · rw [if_neg (by rw [h1]; norm_num), h1]; norm_num
  · rw [if_pos h1, h1]; norm_num

theorem wZ_of_one {M : Macro P} {j : ℕ} (h : wI M j = 1) : wZ M j = 1 := by
  unfold wZ
  rw [if_neg (by rw [h]; norm_num)]

/-- Without negative weights. -/
theorem MacroOk.wI_pos {M : Macro P} {cs : List P} (h : MacroOk M cs) (hp : ∀ i j, 0 ≤ M.layer.adj i j) (j : ℕ) :
    wI M j = 1 := by
  rcases h.wI_one j with h1 | h1
  · exact h1
  · exfalso
    have : 0 ≤ wI M j := by
      unfold wI
      split_ifs with hj
      · cases nbI M j with
        | none => exact zero_le_one
        | some i =>
          simp only [Option.elim_some]
          split_ifs
          · exact hp _ _
          · exact zero_le_one
      · exact zero_le_one
    linarith

/-- After the homodyne measurements. -/
structure Measured (M : Macro P) (cs : List P) (σ : ℕ → ℕ) (G : ℕ → Bool) (q : ℕ → ℕ → ℝ) (starP : ℕ → ℝ) : Prop where
  ok : MacroOk M cs
  perm : M.perm.Perm (List.range (4 * cs.length))
  get : ∀ j < 4 * cs.length, M.perm[j]? = some (σ j)
  group : ∀ j < 4 * cs.length, σ j / 4 = j / 4
  body : ∀ j < 4 * cs.length, ∀ p, M.layer.pts[σ j]? = some p → M.bodyIndex p = some (j % 4 + 1)
  label : ∀ i < 4 * cs.length, ∀ p, M.layer.pts[i]? = some p →
    M.layer.attrs.state p = some (if G i then "GKP" else "p")
  homQ : ∀ k < cs.length, ∀ t, 1 ≤ t → t < 4 → ∀ p, M.layer.pts[σ (4 * k + t)]? = some p →
    M.layer.attrs.homQ p = some (q k t)
  homP : ∀ k < cs.length, ∀ p, M.layer.pts[σ (4 * k)]? = some p → M.layer.attrs.homP p = some (starP k)

/-- Position in the permutation. -/
theorem Measured.surj {M : Macro P} {cs : List P} {σ : ℕ → ℕ} {G : ℕ → Bool} {q : ℕ → ℕ → ℝ} {starP : ℕ → ℝ}
    (h : Measured M cs σ G q starP) {i : ℕ} (hi : i < 4 * cs.length) :
    ∃ t < 4, σ (4 * (i / 4) + t) = i ∧ 4 * (i / 4) + t < 4 * cs.length := by
  have hm : i ∈ M.perm := h.perm.mem_iff.2 (List.mem_range.2 hi)
  obtain ⟨j, hj⟩ := List.mem_iff_getElem?.1 hm
  have hjl : j < 4 * cs.length := by
    have := (List.getElem?_eq_some_iff.1 hj).1
    rwa [h.perm.length_eq, List.length_range] at this
  rw [h.get j hjl] at hj
  have he := Option.some.inj hj
  have hg := h.group j hjl
  rw [he] at hg
  refine ⟨j % 4, by omega, ?_, ?_⟩
  · rw [hg, Nat.div_add_mod]; exact he
  · rw [hg, Nat.div_add_mod]; exact hjl

/-- The processed outcome read off for neighbour `i`. -/
def zVal (M : Macro P) (q : ℕ → ℕ → ℝ) (i : ℕ) : ℝ := zOf (q (i / 4)) (M.perm.idxOf i % 4)

theorem Measured.idx {M : Macro P} {cs : List P} {σ : ℕ → ℕ} {G : ℕ → Bool} {q : ℕ → ℕ → ℝ} {starP : ℕ → ℝ}
    (h : Measured M cs σ G q starP) {j : ℕ} (hj : j < 4 * cs.length) : M.perm.idxOf (σ j) = j := by
  have hnd : M.perm.Nodup := h.perm.nodup_iff.2 List.nodup_range
  obtain ⟨hl, he⟩ := List.getElem?_eq_some_iff.1 (h.get j hj)
  rw [← he]
  exact hnd.idxOf_getElem j hl

theorem Measured.neighborData {M : Macro P} {cs : List P} {σ : ℕ → ℕ} {G : ℕ → Bool} {q : ℕ → ℕ → ℝ} {starP : ℕ → ℝ}
    (h : Measured M cs σ G q starP) {i : ℕ} (hi : i < 4 * cs.length) :
    neighborData M i = some (dataOf G (zVal M q) (nbI M i)) := by
  obtain ⟨p, hp, _, _⟩ := h.ok.get hi
  unfold Noise.neighborData neighborOf
  rw [hp]
  simp only [Option.bind_eq_bind, Option.bind_some]
  rcases h.ok.nbI_cases hp with ⟨h1, h2⟩ | ⟨j, w, h1, h2, h3⟩
  · rw [h1, h2]
    rfl
  · rw [h1, h3]
    have hjl : j < 4 * cs.length := by
      have := (List.getElem?_eq_some_iff.1 h2).1
      rwa [h.ok.len] at this
    obtain ⟨t, ht, hσ, hlt⟩ := h.surj hjl
    have hbody := h.body _ hlt w (by rw [hσ]; exact h2)
    have hmod : (4 * (j / 4) + t) % 4 = t := by omega
    rw [hmod] at hbody
    simp only [hbody, Option.map_some, Option.bind_some]
    have hk : j / 4 < cs.length := by omega
    have hc := h.ok.centre j w h2
    obtain ⟨l, hl1, hl2⟩ := h.ok.dict (M.centre w) (List.mem_of_getElem? hc)
    have hmem : ∀ x ∈ l, ∃ s, s < 4 ∧ M.layer.pts[σ (4 * (j / 4) + s)]? = some x := by
      intro x hx
      obtain ⟨hx1, hx2⟩ := (hl2 x).1 hx
      obtain ⟨i', hi'⟩ := List.mem_iff_getElem?.1 hx1
      have hil : i' < 4 * cs.length := by
        have := (List.getElem?_eq_some_iff.1 hi').1
        rwa [h.ok.len] at this
      have hc' := h.ok.centre i' x hi'
      rw [hx2, ← hc] at hc'
      have hdiv : i' / 4 = j / 4 := by
        rw [List.getElem?_eq_getElem (by omega : i' / 4 < cs.length), List.getElem?_eq_getElem hk] at hc'
        exact h.ok.csNodup.getElem_inj_iff.1 (Option.some.inj hc')
      obtain ⟨s, hs, hσs, _⟩ := h.surj hil
      rw [hdiv] at hσs
      exact ⟨s, hs, by rw [hσs]; exact hi'⟩
    choose! b hb using hmem
    obtain ⟨m, hm1, hm2⟩ := homOutcomes_ok M (M.centre w) w l rfl hl1 (q (j / 4)) b (by
      intro x hx
      obtain ⟨hb1, hb2⟩ := hb x hx
      have hbl : 4 * (j / 4) + b x < 4 * cs.length := by omega
      refine ⟨hb1, ?_, fun hne => h.homQ _ hk _ (by omega) hb1 x hb2⟩
      have := h.body _ hbl x hb2
      rwa [show (4 * (j / 4) + b x) % 4 = b x by omega] at this) (by
      intro s hs1 hs4
      have hsl : 4 * (j / 4) + s < 4 * cs.length := by omega
      have hσl : σ (4 * (j / 4) + s) < 4 * cs.length := by
        have := List.mem_of_getElem? (h.get _ hsl)
        exact List.mem_range.1 (h.perm.mem_iff.1 this)
      obtain ⟨x, hx, hxm, hxc⟩ := h.ok.get hσl
      have hxl : x ∈ l := by
        rw [hl2]
        refine ⟨hxm, ?_⟩
        rw [h.group _ hsl, show (4 * (j / 4) + s) / 4 = j / 4 by omega, hc] at hxc
        exact (Option.some.inj hxc).symm
      refine ⟨x, hxl, ?_⟩
      obtain ⟨hb1, hb2⟩ := hb x hxl
      have e1 := h.body _ hsl x hx
      have e2 := h.body (4 * (j / 4) + b x) (by omega) x hb2
      rw [e1] at e2
      have := Option.some.inj e2
      omega)
    rw [hm1]
    simp only [Option.bind_some]
    rw [process_eq m (q (j / 4)) t ht hm2, h.label j hjl w h2]
    have hidx : M.perm.idxOf j % 4 = t := by
      have e := h.idx hlt
      rw [hσ] at e
      rw [e]; omega
    simp only [dataOf, zVal, hidx, Option.map_some]

/-- Reducing one macronode. -/
theorem Measured.reduce {M : Macro P} {cs : List P} {σ : ℕ → ℕ} {G : ℕ → Bool} {q : ℕ → ℕ → ℝ} {starP : ℕ → ℝ}
    (h : Measured M cs σ G q starP) {k : ℕ} {c : P} (hk : cs[k]? = some c) :
    ∃ a, reduceMacronode M (4 * k) = some { M with
        redBit := Function.update M.redBit c (some (finalBit a))
        redProb := Function.update M.redProb c (some (finalProb M.layer.delta a)) } ∧
      a.outcome = 2 * starP k - (((([0, 1, 2, 3].map fun t => σ (4 * k + t)).filterMap (nbI M)).filter
        fun i => !G i).map (zVal M q)).sum ∧
      a.gkpZ = (((([0, 1, 2, 3].map fun t => σ (4 * k + t)).filterMap (nbI M)).filter G).map (zVal M q)) ∧
      (¬ 0 < M.layer.delta → a.pErr = 0) ∧
      (0 < M.layer.delta → a.pErr = ((((([0, 1, 2, 3].map fun t => σ (4 * k + t)).filterMap (nbI M)).filter G).map fun i =>
        Gkp.zErrCond (2 * M.layer.delta) (zVal M q i) (useHomVal := true)).sum)) ∧
      a.numP = ((([0, 1, 2, 3].map fun t => σ (4 * k + t)).filterMap (nbI M)).filter fun i => !G i).length := by
  have hkl : k < cs.length := (List.getElem?_eq_some_iff.1 hk).1
  have hσl : ∀ t < 4, σ (4 * k + t) < 4 * cs.length := by
    intro t ht
    have := List.mem_of_getElem? (h.get (4 * k + t) (by omega))
    exact List.mem_range.1 (h.perm.mem_iff.1 this)
  obtain ⟨v, hv, _, hvc⟩ := h.ok.get (hσl 0 (by omega))
  rw [add_zero] at hv hvc
  rw [h.group (4 * k) (by omega), show 4 * k / 4 = k by omega, hk] at hvc
  have hvc := (Option.some.inj hvc).symm
  have hinds : CvOps.index M.perm [4 * k, 4 * k + 1, 4 * k + 2, 4 * k + 3] =
      some ([0, 1, 2, 3].map fun t => σ (4 * k + t)) := by
    unfold CvOps.index
    have e : ([0, 1, 2, 3].map fun t => σ (4 * k + t)) = [4 * k, 4 * k + 1, 4 * k + 2, 4 * k + 3].map σ := by simp
    rw [e]
    apply mapM_ok
    intro j hj
    apply h.get
    simp only [List.mem_cons, List.not_mem_nil, or_false] at hj
    omega
  have hdata : ([0, 1, 2, 3].map fun t => σ (4 * k + t)).mapM (Noise.neighborData M) =
      some (((([0, 1, 2, 3].map fun t => σ (4 * k + t)).map (nbI M)).map (dataOf G (zVal M q)))) := by
    rw [List.map_map]
    apply mapM_ok
    intro i hi
    rw [List.mem_map] at hi
    obtain ⟨t, ht, rfl⟩ := hi
    apply h.neighborData
    apply hσl
    simp only [List.mem_cons, List.not_mem_nil, or_false] at ht
    omega
  obtain ⟨a, a1, a2, a3, a4, a5, a6⟩ := acc_fold M.layer.delta G (zVal M q)
    (([0, 1, 2, 3].map fun t => σ (4 * k + t)).map (nbI M)) ⟨0, 0, 2 * starP k, []⟩
  rw [List.filterMap_map] at a2 a3 a5 a6
  refine ⟨a, ?_, a2, a3.trans (List.nil_append _), a4, fun hd => (a5 hd).trans (zero_add _), a6.trans (zero_add _)⟩
  unfold reduceMacronode
  have hget := h.get (4 * k) (by omega)
  simp only [hget, hv, hinds, hdata, h.homP k hkl v hv, a1, Option.bind_eq_bind, Option.bind_some]
  rw [if_pos (by rw [hvc]; exact h.ok.red _ (List.mem_of_getElem? hk)), hvc]
  rfl

/-- Change the results. -/
def Macro.withBits (M : Macro P) (f : P → Option ℤ) (g : P → Option ℝ) : Macro P := { M with redBit := f, redProb := g }

theorem Measured.withBits {M : Macro P} {cs : List P} {σ : ℕ → ℕ} {G : ℕ → Bool} {q : ℕ → ℕ → ℝ} {starP : ℕ → ℝ}
    (h : Measured M cs σ G q starP) (f : P → Option ℤ) (g : P → Option ℝ) : Measured (M.withBits f g) cs σ G q starP :=
  ⟨⟨h.ok.nodup, h.ok.len, h.ok.nonempty, h.ok.csNodup, h.ok.centre, h.ok.dict, h.ok.red, h.ok.nbrs, h.ok.sym, h.ok.adj0, h.ok.adj1, h.ok.order,
    h.ok.delta⟩, h.perm, h.get, h.group, h.body, h.label, h.homQ, h.homP⟩

/-- What one reduction finds. -/
structure Reduced (M : Macro P) (σ : ℕ → ℕ) (G : ℕ → Bool) (q : ℕ → ℕ → ℝ) (starP : ℕ → ℝ) (k : ℕ) (a : Acc) : Prop where
  outcome : a.outcome = 2 * starP k - (((([0, 1, 2, 3].map fun t => σ (4 * k + t)).filterMap (nbI M)).filter
        fun i => !G i).map (zVal M q)).sum
  gkpZ : a.gkpZ = (((([0, 1, 2, 3].map fun t => σ (4 * k + t)).filterMap (nbI M)).filter G).map (zVal M q))
  pErr : ¬ 0 < M.layer.delta → a.pErr = 0
  pErr' : 0 < M.layer.delta → a.pErr = ((((([0, 1, 2, 3].map fun t => σ (4 * k + t)).filterMap (nbI M)).filter G).map fun i =>
    Gkp.zErrCond (2 * M.layer.delta) (zVal M q i) (useHomVal := true)).sum)
  numP : a.numP = ((([0, 1, 2, 3].map fun t => σ (4 * k + t)).filterMap (nbI M)).filter fun i => !G i).length

theorem Measured.reduceAll {M : Macro P} {cs : List P} {σ : ℕ → ℕ} {G : ℕ → Bool} {q : ℕ → ℕ → ℝ} {starP : ℕ → ℝ}
    (h : Measured M cs σ G q starP) (m : ℕ) (hm : m ≤ cs.length) :
    ∃ f g, ((List.range m).map fun k => 4 * k).foldlM reduceMacronode M = some (M.withBits f g) ∧
      ∀ k < m, ∀ c, cs[k]? = some c → ∃ a, f c = some (finalBit a) ∧ g c = some (finalProb M.layer.delta a) ∧
        Reduced M σ G q starP k a := by
  induction m with
  | zero => exact ⟨M.redBit, M.redProb, rfl, by omega⟩
  | succ m ih =>
    obtain ⟨f, g, h1, h2⟩ := ih (by omega)
    have hc : cs[m]? = some cs[m] := List.getElem?_eq_getElem (by omega)
    obtain ⟨a, a1, a2, a3, a4, a5, a6⟩ := (h.withBits f g).reduce hc
    refine ⟨Function.update f cs[m] (some (finalBit a)), Function.update g cs[m] (some (finalProb M.layer.delta a)), ?_, ?_⟩
    · rw [List.range_succ, List.map_append, List.foldlM_append, h1]
      simp only [Option.bind_eq_bind, Option.bind_some, List.map_cons, List.map_nil, List.foldlM_cons, List.foldlM_nil]
      rw [a1]
      rfl
    · intro k hk c hkc
      by_cases hkm : k = m
      · subst hkm
        rw [hc] at hkc
        obtain rfl := Option.some.inj hkc
        exact ⟨a, Function.update_self .., Function.update_self .., a2, a3, a4, a5, a6⟩
      · have hne : c ≠ cs[m] := by
          rintro rfl
          obtain ⟨hkl, he⟩ := List.getElem?_eq_some_iff.1 hkc
          exact hkm (h.ok.csNodup.getElem_inj_iff.1 he)
        obtain ⟨a', b1, b2, b3⟩ := h2 k (by omega) c hkc
        exact ⟨a', by rw [Function.update_of_ne hne]; exact b1, by rw [Function.update_of_ne hne]; exact b2, b3⟩

end Flamingpy.Noise
