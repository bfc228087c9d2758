import Verif.Proofs.MacroExact

/-! # Law of the bits written by macronode noise -/

namespace Flamingpy.Gkp

/-- The number of ones is odd if the sum of the bits is. -/
theorem oddBits_iff {ι : Type*} [Fintype ι] (x : ι → ℝ) : OddBits x ↔ (∑ i, gkpBinner (x i)) % 2 = 1 := by
  have h : ∑ i, gkpBinner (x i) = ((Finset.univ.filter fun i => gkpBinner (x i) = 1).card : ℤ) := by
    rw [Finset.card_filter]
    push_cast
    refine Finset.sum_congr rfl fun i _ => ?_
    rcases binner_zero_or_one (x i) with h | h <;> simp [h]
  unfold OddBits
  rw [h, Nat.odd_iff]
  omega

theorem binner_zero : gkpBinner 0 = 0 := by
  have := gkpBinner_of_decomp 0 0 (by have := binWidth_pos; linarith) (by have := binWidth_pos; linarith)
  simpa using this

theorem frac_zero : fracOf 0 = 0 := by
  have hb : (0:ℝ) ∈ Set.Ioc (-(binWidth / 2)) (binWidth / 2) := by have := binWidth_pos; constructor <;> linarith
  have := binner_bin 0 hb
  simp only [Int.cast_zero, zero_mul, add_zero] at this
  unfold fracOf
  rw [this]

end Flamingpy.Gkp

namespace Flamingpy.Noise

open Flamingpy MeasureTheory ProbabilityTheory
open scoped NNReal ENNReal

variable {P : Type} [DecidableEq P]

theorem SameLabels.links {M N : Macro P} {cs : List P} (hok : MacroOk M cs) (h : SameLabels M N) (c : P) :
    M.links c = N.links c ∧ M.pLinks c = N.pLinks c ∧ M.gkpLinks c = N.gkpLinks c ∧ M.gkpPlanets c = N.gkpPlanets c ∧
      (M.hasGkp c ↔ N.hasGkp c) := by
  have hmic : M.micros c = N.micros c := by unfold Macro.micros; rw [h.pts, h.centre]
  have hl : M.links c = N.links c := by unfold Macro.links; rw [hmic, h.nbrs]
  have hmm : ∀ y ∈ M.links c, y ∈ M.layer.pts := by
    intro y hy
    unfold Macro.links at hy
    obtain ⟨x, hx, hxy⟩ := List.mem_flatMap.1 hy
    have hxp : x ∈ M.layer.pts := (List.mem_filter.1 hx).1
    rcases hok.nbrs x hxp with h0 | ⟨z, hz, h0⟩
    · rw [h0] at hxy; cases hxy
    · rw [h0, List.mem_singleton] at hxy
      rw [hxy]; exact hz
  have hg : M.gkpLinks c = N.gkpLinks c := by
    unfold Macro.gkpLinks
    rw [← hl]
    exact List.filter_congr fun y hy => by rw [h.state y (hmm y hy)]
  refine ⟨hl, ?_, hg, ?_, ?_⟩
  · unfold Macro.pLinks
    rw [← hl]
    exact List.filter_congr fun y hy => by rw [h.state y (hmm y hy)]
  · unfold Macro.gkpPlanets
    rw [← hg]
    refine List.filter_congr fun y hy => ?_
    rw [h.body y (hmm y (List.mem_filter.1 hy).1)]
  · unfold Macro.hasGkp
    rw [← hmic]
    refine exists_congr fun x => and_congr_right fun hx => ?_
    rw [h.state x (List.mem_filter.1 hx).1]

theorem MacroOk.nbList_dist {M : Macro P} {cs : List P} (h : MacroOk M cs) {k : ℕ} (hk : k < cs.length)
    (hnd : (M.around cs[k]).Nodup) : (nbList M k).Nodup ∧ ∀ i ∈ nbList M k, ∀ j ∈ nbList M k, i / 4 = j / 4 → i = j := by
  by_cases hnil : nbList M k = []
  · simp [hnil]
  obtain ⟨i₀, hi₀⟩ := List.exists_mem_of_ne_nil _ hnil
  obtain ⟨_, s, _⟩ := h.nbList_get hk hi₀
  have hp := ((h.links_perm hk s).map M.centre).nodup_iff.2 hnd
  rw [List.map_map] at hp
  refine ⟨hp.of_map _, fun i hi j hj hij => ?_⟩
  refine List.inj_on_of_nodup_map hp hi hj ?_
  obtain ⟨_, y, hy, _⟩ := h.nbList_get hk hi
  obtain ⟨_, z, hz, _⟩ := h.nbList_get hk hj
  have e1 := h.centre i y hy
  have e2 := h.centre j z hz
  rw [hij, e2] at e1
  simp only [Function.comp, hy, hz, Option.getD_some]
  exact (Option.some.inj e1).symm

theorem zNoise_star {L : Layer P} {perm : List ℕ} {z : ℕ → ℝ} {i : ℕ} (h : perm.idxOf i % 4 = 0) : zNoise L perm z i = 0 := by
  unfold zNoise
  rw [h]
  rfl

theorem zNoise_zero {L : Layer P} {perm : List ℕ} {i : ℕ} : zNoise L perm (fun _ => 0) i = 0 := by
  unfold zNoise zOf
  split <;> simp

theorem outNoise_zero {L : Layer P} {perm : List ℕ} {G : ℕ → Bool} {l : List ℕ} {k : ℕ} :
    outNoise L perm G l (fun _ => 0) (fun _ => 0) k = 0 := by
  unfold outNoise starNoise
  rw [List.map_congr_left (g := fun _ => (0:ℝ)) fun i _ => zNoise_zero]
  simp

theorem sum_filter_list {l : List ℕ} (hnd : l.Nodup) (p : ℕ → Bool) (f : ℕ → ℤ) :
    ((l.filter p).map f).sum = ∑ i : {i // i ∈ l.filter p}, f i.1 := by
  classical
  rw [← List.sum_toFinset _ (hnd.filter _)]
  exact Finset.sum_subtype _ (fun x => List.mem_toFinset) f

/-- The bits of a list of neighbours, when the neighbours outside a sublist have bit zero. -/
theorem sum_drop_zero (l : List ℕ) (p q : ℕ → Bool) (f : ℕ → ℤ) (h : ∀ i ∈ l, p i = true → q i = false → f i = 0) :
    ((l.filter p).map f).sum = ((l.filter fun i => p i && q i).map f).sum := by
  induction l with
  | nil => rfl
  | cons a l ih =>
    have ih := ih fun i hi => h i (by simp [hi])
    cases hp : p a with
    | false => simp [hp, ih]
    | true =>
      cases hq : q a with
      | true => simp [hp, hq, ih]
      | false => simp [hp, hq, ih, h a (by simp) hp hq]

variable {Ω : Type*} [MeasurableSpace Ω] {μ : Measure Ω}

/-- The indices of the GKP neighbours that are not stars. -/
def planetList (M : Macro P) (perm : List ℕ) (G : ℕ → Bool) (k : ℕ) : List ℕ :=
  (nbList M k).filter fun i => G i && decide (perm.idxOf i % 4 ≠ 0)

/-- The displacements at a node. -/
noncomputable def nodeNoise (M : Macro P) (perm : List ℕ) (G : ℕ → Bool) (k : ℕ) (Z : Bool × ℕ → ℝ) :
    Option {i // i ∈ planetList M perm G k} → ℝ
  | none => outNoise M.layer perm G (nbList M k) (fun i => Z (true, i)) (fun i => Z (false, i)) k
  | some i => zNoise M.layer perm (fun i => Z (false, i)) i.1

theorem oddSum_parity (x : ℤ) (l : List ℕ) (m f : ℕ → ℤ) (c : ℤ) :
    ((c + x) % 2 + (l.map fun i => (m i + f i) % 2).sum) % 2 = (c + (l.map m).sum + (x + (l.map f).sum)) % 2 := by
  induction l with
  | nil => simp
  | cons a l ih => simp only [List.map_cons, List.sum_cons]; omega

/-- Runs with given deviates: labels do not depend on them, and a bit differs from the noiseless one exactly if an odd number of
displacements is binned to one. -/
theorem run_flip {M₀ M : Macro P} {cs : List P} (hok : MacroOk M₀ cs) {n : ℕ} {ps₀ gs₀ : List ℕ}
    (hi : Inv M₀.layer M.layer n ps₀ gs₀) (hh : Hist M₀.layer n M.layer) (hf : Frame M₀ M) (draw : List ℕ) (means : Rnd)
    (empty : List ℕ) (rp rq : Rnd)
    (hdraw : ∀ i ∈ draw, i < M.layer.pts.length) (he : empty.length = 2 * M.layer.pts.length)
    (hw : ∀ i, gkpSet (nextP M.layer draw ps₀) i = false → wI M₀ i = 1) :
    ∃ (G : ℕ → Bool) (run : (Bool × ℕ → ℝ) → Macro P),
      (∀ Z, macroApply M (macroRnd draw means empty rp rq Z) = some (run Z)) ∧
      (∀ Z, SameLabels (run Z) (run fun _ => 0)) ∧ (∀ Z, MacroOk (run Z) cs) ∧
      (∀ Z c, (run Z).around c = M₀.around c) ∧
      (∀ Z i y, M₀.layer.pts[i]? = some y → (run Z).layer.attrs.state y = some (if G i then "GKP" else "p") ∧
        (run Z).bodyIndex y = some ((permOf G cs.length).idxOf i % 4 + 1)) ∧
      (∀ Z k (_ : k < cs.length), nbList (run Z) k = nbList M₀ k) ∧ (∀ Z, (run Z).layer.pts = M₀.layer.pts) ∧
      ∀ k (hk : k < cs.length), (M₀.around cs[k]).Nodup → (∀ c' ∈ M₀.around cs[k], (run fun _ => 0).hasGkp c') →
        (∀ i ∈ nbList M₀ k, G i = false → (permOf G cs.length).idxOf i % 4 ≠ 0) ∧
        ∀ Z, ((run Z).redBit cs[k] ≠ (run fun _ => 0).redBit cs[k] ↔ Gkp.OddBits (nodeNoise M₀ (permOf G cs.length) G k Z)) ∧
          (∃ m : ℤ, (run Z).outcome cs[k] = m * √Real.pi + nodeNoise M₀ (permOf G cs.length) G k Z none) ∧
          ∀ i ∈ nbList M₀ k, G i = true → ∀ y, M₀.layer.pts[i]? = some y → ∃ m : ℤ, (run Z).contribution y =
            m * √Real.pi + zNoise M₀.layer (permOf G cs.length) (fun i => Z (false, i)) i := by
  set ps := nextP M.layer draw ps₀ with hps
  set gs := compl M.layer.pts.length (ps ++ gs₀) with hgs
  set G := gkpSet ps with hGdef
  have hrun := fun Z => run_exact hok hi hh hf (macroRnd draw means empty rp rq Z) hdraw he (ps := ps) (gs := gs) hps hgs hw
  choose run r1 r2 r3 r4 r5 r6 using hrun
  have hokr : ∀ Z, MacroOk (run Z) cs := by
    intro Z
    refine ⟨by rw [r3]; exact hok.nodup, by rw [r3]; exact hok.len, hok.nonempty, hok.csNodup, ?_, ?_, ?_, ?_, ?_, ?_, ?_, ?_, ?_⟩
    · intro i p; rw [r3, (r2 Z).centre]; exact hok.centre i p
    · intro c hc; rw [r3, (r2 Z).centre, (r2 Z).dict]; exact hok.dict c hc
    · intro c hc; rw [(r2 Z).redNodes]; exact hok.red c hc
    · rw [r3, (r2 Z).nbrs]; exact hok.nbrs
    all_goals
      obtain ⟨M', ps', gs', h1, hi', _, hf', _⟩ := run_spec hok hi hh hf (macroRnd draw means empty rp rq Z) hdraw he
      rw [r1 Z] at h1
      obtain rfl := Option.some.inj h1
      have := hok.transport hi' hf'
    · exact this.sym
    · exact this.adj0
    · exact this.adj1
    · exact this.order
    · exact this.delta
  have hnbl : ∀ Z k, nbList (run Z) k = nbList M₀ k := by
    intro Z k
    unfold nbList
    congr 1
    funext i
    unfold nbI
    rw [r3, (r2 Z).nbrs]
  have har : ∀ Z c, (run Z).around c = M₀.around c := by
    intro Z c
    unfold Macro.around Macro.micros
    rw [r3, (r2 Z).nbrs, (r2 Z).centre]
  have hsame : ∀ Z, SameLabels (run Z) (run fun _ => 0) := by
    intro Z
    refine ⟨by rw [r3, r3], by rw [(r2 Z).nbrs, (r2 _).nbrs], by rw [(r2 Z).centre, (r2 _).centre], ?_, ?_⟩
    · intro y hy
      rw [r3] at hy
      obtain ⟨i, hi⟩ := List.mem_iff_getElem?.1 hy
      rw [(r5 Z i y hi).1, (r5 _ i y hi).1]
    · intro y hy
      rw [r3] at hy
      obtain ⟨i, hi⟩ := List.mem_iff_getElem?.1 hy
      rw [(r5 Z i y hi).2, (r5 _ i y hi).2]
  refine ⟨G, run, r1, hsame, hokr, har, r5, fun Z k _ => hnbl Z k, r3, fun k hk hnd hgkp => ?_⟩
  -- the stars of the neighbouring macronodes are GKP states
  have hsG : ∀ i ∈ nbList M₀ k, G (starOf G (i / 4)) = true := by
    intro i hil
    obtain ⟨hil', y, hy, hyl⟩ := hok.nbList_get hk hil
    obtain ⟨x, hx, hs⟩ := hgkp (M₀.centre y) (List.mem_map_of_mem hyl)
    rw [starOf_gkp]
    unfold Macro.micros at hx
    rw [List.mem_filter, decide_eq_true_eq, r3, (r2 _).centre] at hx
    obtain ⟨j, hj⟩ := List.mem_iff_getElem?.1 hx.1
    have hjl : j < 4 * cs.length := by
      have := (List.getElem?_eq_some_iff.1 hj).1
      rwa [hok.len] at this
    refine ⟨j, ?_, ?_⟩
    · have c1 := hok.centre j x hj
      have c2 := hok.centre i y hy
      rw [hx.2, ← c2] at c1
      rw [List.getElem?_eq_getElem (by omega : j / 4 < cs.length), List.getElem?_eq_getElem (by omega : i / 4 < cs.length)] at c1
      exact hok.csNodup.getElem_inj_iff.1 (Option.some.inj c1)
    · rw [(r5 _ j x hj).1] at hs
      by_contra hne
      have : G j = false := by simpa using hne
      rw [hGdef] at this
      rw [this] at hs
      simp at hs
  have hstar : ∀ i ∈ nbList M₀ k, (permOf G cs.length).idxOf i % 4 = 0 → i = starOf G (i / 4) := by
    intro i hil h0
    have hil' := (hok.nbList_get hk hil).1
    have hmem : i ∈ permOf G cs.length := (permOf_perm G cs.length).mem_iff.2 (List.mem_range.2 hil')
    set j := (permOf G cs.length).idxOf i with hj
    have hjl : j < (permOf G cs.length).length := List.idxOf_lt_length_of_mem hmem
    have hget : (permOf G cs.length)[j]? = some i := by
      rw [List.getElem?_eq_getElem hjl]
      exact congrArg some (List.getElem_idxOf hjl)
    rw [permOf_length] at hjl
    have h4 : 4 * (j / 4) = j := by omega
    have h1 := starOf_get G cs.length (j / 4) (by omega)
    rw [h4, hget] at h1
    have h2 := Option.some.inj h1
    have h3 := starOf_mem G (j / 4)
    rw [← h2] at h3
    rw [h3]; exact h2
  have hGp : ∀ i ∈ nbList M₀ k, G i = false → (permOf G cs.length).idxOf i % 4 ≠ 0 := by
    intro i hil hGi h0
    have h1 := hstar i hil h0
    have h2 := hsG i hil
    rw [← h1, hGi] at h2
    cases h2
  refine ⟨hGp, fun Z => ⟨?_, ?_, ?_⟩⟩
  · set perm := permOf G cs.length with hperm
    set l := (nbList M₀ k).filter G with hl
    set m : ℕ → ℤ := fun i => bitOf means gs i - bitOf means gs (starOf G (i / 4)) with hm
    set C : ℤ := ((nbList M₀ k).map fun i => if G i then wZ M₀ i * bitOf means gs i else bitOf means gs (starOf G (i / 4))).sum with hC
    have hbit : ∀ Z, (run Z).redBit cs[k] = some ((C + (l.map m).sum +
        (Gkp.gkpBinner (outNoise M₀.layer perm G (nbList M₀ k) (fun i => Z (true, i)) (fun i => Z (false, i)) k) +
          (l.map fun i => Gkp.gkpBinner (zNoise M₀.layer perm (fun i => Z (false, i)) i)).sum)) % 2) := by
      intro Z
      obtain ⟨b1, b2, b3⟩ := r6 Z k hk hsG
      have hG := (hokr Z).links_filter hk (fun y => decide ((run Z).layer.attrs.state y = some "GKP")) G
        (fun i y hy => by
          rw [r3] at hy
          rw [(r5 Z i y hy).1, hGdef]
          cases gkpSet ps i <;> simp)
        (fun y => Gkp.gkpBinner ((run Z).contribution y))
        (fun i => (((run Z).layer.pts[i]?).map fun y => Gkp.gkpBinner ((run Z).contribution y)).getD 0)
        (fun i y hy => by rw [hy]; rfl)
      rw [hnbl] at hG
      rw [b1, Macro.gkpLinks, hG.sum_eq, b2, (Gkp.binner_add _ _).1]
      congr 1
      rw [← oddSum_parity]
      congr 2
      rw [← hl]
      congr 1
      refine List.map_congr_left fun i hi => ?_
      rw [hl, List.mem_filter] at hi
      obtain ⟨_, y, hy, _⟩ := hok.nbList_get hk hi.1
      rw [r3, hy]
      simp only [Option.map_some, Option.getD_some]
      rw [b3 i hi.1 hi.2 y hy, (Gkp.binner_add _ _).1]
      rfl
    have hb0 := hbit fun _ => 0
    simp only [zNoise_zero, outNoise_zero, Gkp.binner_zero] at hb0
    rw [hbit Z, hb0, Gkp.oddBits_iff, Fintype.sum_option]
    have hzero : (l.map fun _ => (0 : ℤ)).sum = 0 := by simp
    rw [hzero]
    have hsum : (l.map fun i => Gkp.gkpBinner (zNoise M₀.layer perm (fun i => Z (false, i)) i)).sum =
        ∑ i : {i // i ∈ planetList M₀ perm G k}, Gkp.gkpBinner (nodeNoise M₀ perm G k Z (some i)) := by
      rw [hl, sum_drop_zero _ G (fun i => decide (perm.idxOf i % 4 ≠ 0))]
      · exact sum_filter_list (hok.nbList_dist hk hnd).1 _ _
      · intro i _ _ h0
        rw [zNoise_star (by simpa using h0), Gkp.binner_zero]
    rw [hsum, ne_eq, Option.some.injEq]
    change ¬ (C + (l.map m).sum + (Gkp.gkpBinner (nodeNoise M₀ perm G k Z none) + _)) % 2 = _ ↔ _
    omega
  · exact ⟨_, (r6 Z k hk hsG).2.1⟩
  · intro i hil hGi y hy
    exact ⟨_, (r6 Z k hk hsG).2.2 i hil hGi y hy⟩

end Flamingpy.Noise
