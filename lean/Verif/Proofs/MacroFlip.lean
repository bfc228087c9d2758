import Verif.Proofs.MacroLaw

/-! # Flips of macronode bits, for any number of squeezed modes -/

namespace Flamingpy.Noise

open Flamingpy

variable {P : Type} [DecidableEq P]

/-- The real part of the outcome at a macronode: noise, the positions of the squeezed stars next to it, and (since the weights `w` of
edges are not used when outcomes of neighbours are subtracted) the positions of squeezed neighbours at edges of weight -1. -/
noncomputable def flipOut (L : Layer P) (w : ℕ → ℝ) (G : ℕ → Bool) (n : ℕ) (l : List ℕ) (u zp zq : ℕ → ℝ) (k : ℕ) : ℝ :=
  outNoise L (permOf G n) G l zp zq k +
    ((l.filter fun i => !G i && !G (starOf G (i / 4))).map fun i => u (starOf G (i / 4)) * (2 * √Real.pi)).sum +
    ((l.filter fun i => !G i).map fun i => (w i - 1) * (u i * (2 * √Real.pi))).sum

/-- The part of the bit that does not depend on the bits of GKP states. -/
noncomputable def flipInt (L : Layer P) (w : ℕ → ℝ) (G : ℕ → Bool) (n : ℕ) (l : List ℕ) (u zp zq : ℕ → ℝ) (k : ℕ) : ℤ :=
  Gkp.gkpBinner (flipOut L w G n l u zp zq k) + ((l.filter G).map fun i => Gkp.gkpBinner (zNoise L (permOf G n) zq i)).sum

/-- The bits of one run are parities of bits of neighbours plus flips. -/
theorem run_flips {M₀ M : Macro P} {cs : List P} (hok : MacroOk M₀ cs) {n : ℕ} {ps₀ gs₀ : List ℕ}
    (hi : Inv M₀.layer M.layer n ps₀ gs₀) (hh : Hist M₀.layer n M.layer) (hf : Frame M₀ M) (r : MacroRnd)
    (hdraw : ∀ i ∈ r.draw, i < M.layer.pts.length) (he : r.empty.length = 2 * M.layer.pts.length)
    {ps : List ℕ} (hps : ps = nextP M.layer r.draw ps₀) :
    ∃ M', macroApply M r = some M' ∧
      (∀ k (hk : k < cs.length), M'.redState cs[k] = some (if gkpSet ps (starOf (gkpSet ps) k) then "GKP" else "p")) ∧
      ∃ b : P → ℤ, ∀ k (hk : k < cs.length), M'.redBit cs[k] = some ((((M₀.around cs[k]).map b).sum +
        flipInt M₀.layer (wI M₀) (gkpSet ps) cs.length (nbList M₀ k) r.means.u r.p.z r.q.z k) % 2) := by
  obtain ⟨M', ps', gs, h1, hi', hh', hf', hperm, hred, σ, q, starP, hm, hstar, hbits, e1, e2, hs1, hs2⟩ :=
    run_spec hok hi hh hf r hdraw he
  rw [← hps] at e1
  subst e1
  have hok' := hok.transport hi' hf'
  have hpts : M'.layer.pts = M₀.layer.pts := hi'.pts
  have hnb : ∀ i, nbI M' i = nbI M₀ i := by
    intro i; unfold nbI; rw [hpts, hf'.nbrs]
  have hnbl : ∀ k, nbList M' k = nbList M₀ k := by
    intro k; unfold nbList; rw [show nbI M' = nbI M₀ from funext hnb]
  set G := gkpSet ps' with hG
  have hpm : ∀ i, G i = false → meanQ r.means ps' gs i = r.means.u i * (2 * √Real.pi) := by
    intro i hgi
    have hip : i ∈ ps' := by simpa [hG, gkpSet] using hgi
    have hig : i ∉ gs := by
      intro hc
      rw [e2, mem_compl] at hc
      exact hc.2 (by simp [hip])
    unfold meanQ
    rw [if_neg hig, if_pos hip]
  -- the bit of a star
  set sb : ℕ → ℤ := fun k => if G (starOf G k) then bitOf r.means gs (starOf G k) else 0 with hsb
  refine ⟨M', h1, fun k hk => hred k _ (List.getElem?_eq_getElem hk), fun c => sb (cs.idxOf c), fun k hk => ?_⟩
  obtain ⟨a, a1, _, a3⟩ := hbits k _ (List.getElem?_eq_getElem hk)
  have hlper := arranged_perm G cs.length k hk σ (by rw [← hperm]; exact hm.get)
  have hlp : (([0, 1, 2, 3].map fun t => σ (4 * k + t)).filterMap (nbI M')).Perm (nbList M₀ k) := by
    rw [← hnbl]; exact hlper.filterMap _
  have hmem : ∀ i ∈ nbList M₀ k, i < 4 * cs.length := fun i hil => (hok.nbList_get hk hil).1
  have hz : ∀ i ∈ nbList M₀ k, zVal M' q i = meanQ r.means ps' gs i - meanQ r.means ps' gs (starOf G (i / 4)) +
      zNoise M₀.layer (permOf G cs.length) r.q.z i := by
    intro i hil
    have hil' := hmem i hil
    rw [hs2 i hil', hstar (i / 4) (by omega), hperm]
  have hsum : ((M₀.around cs[k]).map fun c => sb (cs.idxOf c)).sum = ((nbList M₀ k).map fun i => sb (i / 4)).sum := by
    rw [hok.around_sum (List.getElem?_eq_getElem hk)]
    congr 1
    refine List.map_congr_left fun i hil => ?_
    have hil' := hmem i hil
    obtain ⟨p, hp, _, hpc⟩ := hok.get hil'
    rw [hp, Option.map_some, Option.getD_some]
    obtain ⟨hl, hc⟩ := List.getElem?_eq_some_iff.1 hpc
    rw [← hc, hok.csNodup.idxOf_getElem]
  rw [hsum, a1, finalBit, a3.outcome, a3.gkpZ, hs1 k hk, (((hlp.filter fun i => !G i).map (zVal M' q)).sum_eq),
    (hlp.map _).sum_eq, List.map_map, ((hlp.filter G).map _).sum_eq, hperm]
  -- the outcome
  have hout : ∀ l' : List ℕ, (∀ i ∈ l', i ∈ nbList M₀ k) →
      (l'.map fun i => wI M₀ i * meanQ r.means ps' gs i).sum - ((l'.filter fun i => !G i).map (zVal M' q)).sum =
      ((l'.map fun i => if G i then wZ M₀ i * bitOf r.means gs i else sb (i / 4)).sum : ℤ) * √Real.pi +
        ((l'.filter fun i => !G i && !G (starOf G (i / 4))).map fun i => r.means.u (starOf G (i / 4)) * (2 * √Real.pi)).sum +
        ((l'.filter fun i => !G i).map fun i => (wI M₀ i - 1) * (r.means.u i * (2 * √Real.pi))).sum -
        ((l'.filter fun i => !G i).map (zNoise M₀.layer (permOf G cs.length) r.q.z)).sum := by
    intro l' hsub
    induction l' with
    | nil => simp
    | cons b l' ih =>
      have ih := ih fun i hi => hsub i (by simp [hi])
      cases hgb : G b with
      | true =>
        have hb := meanQ_gkp (gs := gs) r.means (ps := ps') hgb
        simp only [List.map_cons, List.sum_cons, List.filter_cons, hgb, Bool.not_true, Bool.false_and, Bool.false_eq_true, if_false,
          if_true, Int.cast_add, Int.cast_mul]
        rw [hb, hok.wI_cast, add_mul]
        linarith
      | false =>
        have hzb := hz b (hsub b (by simp))
        cases hgs : G (starOf G (b / 4)) with
        | true =>
          have hb := meanQ_gkp (gs := gs) r.means (ps := ps') hgs
          have hsbb : sb (b / 4) = bitOf r.means gs (starOf G (b / 4)) := by rw [hsb]; simp [hgs]
          simp only [List.map_cons, List.sum_cons, List.filter_cons, hgb, hgs, Bool.not_false, Bool.not_true, Bool.and_false, if_true,
            Bool.false_eq_true, if_false, Int.cast_add]
          rw [hzb, hsbb, hb, hpm b hgb]
          linarith
        | false =>
          have hb := hpm _ hgs
          have hsbb : sb (b / 4) = 0 := by rw [hsb]; simp [hgs]
          simp only [List.map_cons, List.sum_cons, List.filter_cons, hgb, hgs, Bool.not_false, Bool.and_self, if_true,
            Bool.false_eq_true, if_false, Int.cast_add]
          rw [hzb, hsbb, hb, hpm b hgb]
          rw [Int.cast_zero]
          linarith
  have hout' := hout _ fun i hi => hi
  have hO : (((nbList M₀ k).map fun i => wI M₀ i * meanQ r.means ps' gs i).sum + 2 * starNoise M₀.layer (permOf G cs.length) r.p.z k -
      (((nbList M₀ k).filter fun i => !G i).map (zVal M' q)).sum) =
      (((nbList M₀ k).map fun i => if G i then wZ M₀ i * bitOf r.means gs i else sb (i / 4)).sum : ℤ) * √Real.pi +
        flipOut M₀.layer (wI M₀) G cs.length (nbList M₀ k) r.means.u r.p.z r.q.z k := by
    unfold flipOut outNoise
    linarith
  have hZ : ∀ i ∈ (nbList M₀ k).filter G, (Gkp.gkpBinner ∘ zVal M' q) i =
      (bitOf r.means gs i - sb (i / 4) + Gkp.gkpBinner (zNoise M₀.layer (permOf G cs.length) r.q.z i)) % 2 := by
    intro i hil
    rw [List.mem_filter] at hil
    have hgs : G (starOf G (i / 4)) = true := (starOf_gkp G _).2 ⟨i, rfl, hil.2⟩
    have hsbb : sb (i / 4) = bitOf r.means gs (starOf G (i / 4)) := by rw [hsb]; simp [hgs]
    rw [Function.comp, hz i hil.1, meanQ_gkp (gs := gs) r.means (ps := ps') hil.2, meanQ_gkp (gs := gs) r.means (ps := ps') hgs, hsbb]
    rw [← (Gkp.binner_add _ _).1]
    congr 1
    push_cast
    ring
  rw [hO, (Gkp.binner_add _ _).1, List.map_congr_left hZ]
  unfold flipInt
  congr 1
  generalize Gkp.gkpBinner (flipOut M₀.layer (wI M₀) G cs.length (nbList M₀ k) r.means.u r.p.z r.q.z k) = x
  clear hO hZ hout' hout hz hsum hlp a1 a3 hs1
  have hpar : ∀ l : List ℕ, ∃ t : ℤ,
      (l.map fun i => if G i then wZ M₀ i * bitOf r.means gs i else sb (i / 4)).sum + ((l.filter G).map fun i =>
        (bitOf r.means gs i - sb (i / 4) + Gkp.gkpBinner (zNoise M₀.layer (permOf G cs.length) r.q.z i)) % 2).sum =
      (l.map fun i => sb (i / 4)).sum + ((l.filter G).map fun i => Gkp.gkpBinner (zNoise M₀.layer (permOf G cs.length) r.q.z i)).sum +
        2 * t := by
    intro l
    induction l with
    | nil => exact ⟨0, by simp⟩
    | cons i l ih =>
      obtain ⟨t, ih⟩ := ih
      cases hgi : G i with
      | true =>
        simp only [List.map_cons, List.sum_cons, List.filter_cons, hgi, if_true]
        set y := bitOf r.means gs i
        set s := sb (i / 4)
        set g := Gkp.gkpBinner (zNoise M₀.layer (permOf G cs.length) r.q.z i)
        have := Int.emod_add_mul_ediv (y - s + g) 2
        rcases wZ_one M₀ i with hz1 | hz1 <;> rw [hz1]
        · exact ⟨t + (y - s) - (y - s + g) / 2, by linarith⟩
        · exact ⟨t - s - (y - s + g) / 2, by linarith⟩
      | false =>
        simp only [List.map_cons, List.sum_cons, List.filter_cons, hgi, Bool.false_eq_true, if_false]
        exact ⟨t, by linarith⟩
  obtain ⟨t, ht⟩ := hpar (nbList M₀ k)
  omega

end Flamingpy.Noise
