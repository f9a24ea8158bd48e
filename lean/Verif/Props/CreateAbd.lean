import Verif.Spec.CreateAbd
import Verif.Props.AbdModes
import Verif.Props.Monotonic
import Verif.Lemmas.WignerConj
import Verif.Lemmas.ComMotion

/-!
# Properties of `create_abd_from_h5` (C62)
-/

namespace Verif.Props.CreateAbd

open Verif Verif.Modes Verif.AbdModes Verif.AbdModes.Spec Verif.GridModes Verif.CreateAbd Verif.CreateAbd.Spec
open Verif.GridModes.Spec (rowModes ethTime weylE weylSum shift)
open Verif.GridMultiply.Spec (expansion)
open ComplexConjugate

/-! ## Assignments -/

theorem keep_get {α : Type} (idx : List Nat) (l : List α) (h : ∀ j ∈ idx, j < l.length) : (keep idx l).length = idx.length ∧ ∀ (i j : Nat), idx[i]? = some j → (keep idx l)[i]? = l[j]? := by
  induction idx with
  | nil => exact ⟨rfl, fun i j h => by simp at h⟩
  | cons k idx ih =>
    obtain ⟨h1, h2⟩ := ih fun j hj => h j (List.mem_cons_of_mem _ hj)
    have hk := h k List.mem_cons_self
    have e : keep (k :: idx) l = l[k] :: keep idx l := by
      unfold keep
      rw [List.filterMap_cons, List.getElem?_eq_getElem hk]
    rw [e]
    refine ⟨by simp [h1], fun i j hj => ?_⟩
    cases i with
    | zero =>
      simp only [List.getElem?_cons_zero, Option.some.injEq] at hj ⊢
      subst hj
      rw [List.getElem?_eq_getElem hk]
    | succ i =>
      rw [List.getElem?_cons_succ] at hj ⊢
      exact h2 i j hj

theorem indices_lt {y : List ℝ} {idx : List Nat} (h : Monotonic.monotonicIndices y = .ok idx) : ∀ j ∈ idx, j < y.length := by
  unfold Monotonic.monotonicIndices at h
  cases hm : Monotonic.indexIsMonotonic y with
  | error e => rw [hm] at h; cases h
  | ok mask =>
    rw [hm, ok_bind, pure_eq_ok] at h
    have := Except.ok.inj h
    subst this
    intro j hj
    exact List.mem_range.mp (List.mem_filter.mp hj).1

theorem lookup_map {α β : Type} (f : α → β) (l : List (String × α)) (k : String) : (l.map fun p => (p.1, f p.2)).lookup k = (l.lookup k).map f := by
  induction l with
  | nil => rfl
  | cons p l ih =>
    rw [List.map_cons, List.lookup_cons, List.lookup_cons]
    cases k == p.1
    · simpa using ih
    · rfl

theorem lookup_mem {α : Type} {l : List (String × α)} {k : String} {a : α} (h : l.lookup k = some a) : ∃ p ∈ l, p.2 = a := by
  induction l with
  | nil => simp at h
  | cons p l ih =>
    rw [List.lookup_cons] at h
    cases hk : k == p.1
    · rw [hk] at h
      obtain ⟨q, hq, e⟩ := ih h
      exact ⟨q, List.mem_cons_of_mem _ hq, e⟩
    · rw [hk] at h
      exact ⟨p, List.mem_cons_self, Option.some.inj h⟩

theorem start_eq (a : Int) : lmIndex a (-a) 0 = a ^ 2 := by
  unfold lmIndex
  ring

theorem assign_ok (f : ℝ) (L : Int) (nt : Nat) (w : WModes) (h1 : w.ellMax = L) (h2 : 0 ≤ w.ellMin) (h3 : w.ellMin ≤ L) (h4 : w.data.length = nt) :
    ∃ rows, assign f L nt w = .ok rows ∧ rows.length = nt ∧ ∀ i, i < nt → ∀ ell m : Int, 0 ≤ ell → ell ≤ L → |m| ≤ ell → (rows.getD i fun _ => 0) (lmIndex ell m 0) = (f : ℂ) * wmode w i ell m := by
  subst h1 h4
  have ht : max 0 ((w.ellMax + 1) ^ 2 - w.ellMin ^ 2) = (w.ellMax + 1) ^ 2 - w.ellMin ^ 2 := max_eq_right (by nlinarith)
  unfold assign
  simp only [start_eq, ht]
  rw [if_neg (by tauto), if_neg (by tauto)]
  refine ⟨_, rfl, by simp, ?_⟩
  intro i hi ell m g1 g2 g3
  rw [abs_le] at g3
  have hb := lmIndex_block 0 g3
  simp only [List.getD_eq_getElem?_getD, List.getElem?_map, List.getElem?_range hi, Option.map_some, Option.getD_some]
  unfold wmode rowModes
  by_cases hc : w.ellMin ≤ ell
  · rw [if_pos ⟨by nlinarith, by nlinarith⟩, if_pos hc]
    simp only [if_true, List.getD_eq_getElem?_getD]
    congr 2
    unfold lmIndex
    ring_nf
  · rw [if_neg (fun h => hc (by nlinarith [h.1])), if_neg hc, mul_zero]

/-- The field of a label: what is assigned, or zero. -/
theorem field_ok (f : ℝ) (L : Int) (nt : Nat) (w : Option WModes) (h : ∀ v ∈ w, v.ellMax = L ∧ 0 ≤ v.ellMin ∧ v.ellMin ≤ L ∧ v.data.length = nt) :
    ∃ rows, field f L nt w = .ok rows ∧ rows.length = nt ∧ ∀ i, i < nt → ∀ ell m : Int, 0 ≤ ell → ell ≤ L → |m| ≤ ell → (rows.getD i fun _ => 0) (lmIndex ell m 0) = (w.map fun w => (f : ℂ) * wmode w i ell m).getD 0 := by
  cases w with
  | none =>
    refine ⟨_, rfl, by simp, fun i hi ell m _ _ _ => ?_⟩
    simp [List.getD_eq_getElem?_getD, hi]
  | some w =>
    obtain ⟨h1, h2, h3, h4⟩ := h w rfl
    exact assign_ok f L nt w h1 h2 h3 h4

theorem barRow_spec (s L : Int) (row : Row ℂ) (ell m : Int) (h0 : 0 ≤ ell) (h1 : ell ≤ L) (h2 : |m| ≤ ell) :
    barRow s L row (lmIndex ell m 0) = (-1) ^ (s + m).natAbs * conj (row (lmIndex ell (-m) 0)) := by
  have := (Props.Modes.LM_index 0 L ell m le_rfl ((Props.Modes.mem_LM 0 L ell m).mpr ⟨h0, h1, h2⟩)).2.2
  unfold barRow
  rw [this]

theorem sigma_ok (f : ℝ) (L : Int) (nt : Nat) (ws : List (String × WModes)) (h : ∀ v ∈ (ws.lookup "h").orElse fun _ => ws.lookup "Strain", v.ellMax = L ∧ 0 ≤ v.ellMin ∧ v.ellMin ≤ L ∧ v.data.length = nt) :
    ∃ rows, sigma f L nt ws = .ok rows ∧ rows.length = nt ∧ ∀ i, i < nt → ∀ ell m : Int, 0 ≤ ell → ell ≤ L → |m| ≤ ell →
      (rows.getD i fun _ => 0) (lmIndex ell m 0) = (((ws.lookup "h").orElse fun _ => ws.lookup "Strain").map fun w => (f : ℂ) * Charges.bar (-2) (wmode w i) ell m).getD 0 := by
  unfold sigma
  generalize ((ws.lookup "h").orElse fun _ => ws.lookup "Strain") = w at *
  cases w with
  | none =>
    refine ⟨_, rfl, by simp, fun i hi ell m _ _ _ => ?_⟩
    simp [List.getD_eq_getElem?_getD, hi]
  | some w =>
    obtain ⟨h1, h2, h3, h4⟩ := h w rfl
    obtain ⟨rows, e1, e2, e3⟩ := assign_ok f L nt w h1 h2 h3 h4
    simp only [e1, ok_bind, pure_eq_ok]
    refine ⟨_, rfl, by simp [e2], fun i hi ell m g1 g2 g3 => ?_⟩
    have hr : i < rows.length := by omega
    have := e3 i hi ell (-m) g1 g2 (by rwa [abs_neg])
    rw [List.getD_eq_getElem rows _ hr] at this
    simp only [List.getD_eq_getElem?_getD, List.getElem?_map, List.getElem?_eq_getElem hr, Option.map_some, Option.getD_some]
    rw [barRow_spec _ _ _ _ _ g1 g2 g3, this, map_mul, Complex.conj_ofReal]
    unfold Charges.bar
    have hs : ((-1 : ℂ)) ^ (2 + m).natAbs = (-1) ^ (-2 + m).natAbs := by
      rcases Nat.even_or_odd (2 + m).natAbs with h | h
      · have h' : Even (-2 + m).natAbs := by
          rw [Nat.even_iff] at h ⊢
          omega
        rw [h.neg_one_pow, h'.neg_one_pow]
      · have h' : Odd (-2 + m).natAbs := by
          rw [Nat.odd_iff] at h ⊢
          omega
        rw [h.neg_one_pow, h'.neg_one_pow]
    rw [hs]
    ring

/-! ## The object that is created -/

/-- The shift of the times: the radius of the worldtube for files of SpECTRE, otherwise none. -/
def shiftBy : Option (Option ℝ) → Option ℝ
  | none => some 0
  | some r => r

theorem prepare_ok {wms : List (String × WModes)} {t : List ℝ} {L : Int} (hf : Fit wms t L) {radius : Option (Option ℝ)} {r : ℝ} (hr : shiftBy radius = some r) {idx : List Nat}
    (hi : Monotonic.monotonicIndices (t.map (· - r)) = .ok idx) (p : String × WModes) (hp : p ∈ wms) :
    prepare none radius p = .ok (p.1, { p.2 with t := keep idx (t.map (· - r)), data := keep idx p.2.data }) := by
  have h1 := hf.times p hp
  have h2 := hf.rows p hp
  have hm : ∀ w : WModes, w.t = t.map (· - r) → w.data = p.2.data → monotonic w = .ok { w with t := keep idx (t.map (· - r)), data := keep idx p.2.data } := by
    intro w e1 e2
    unfold monotonic
    rw [e1, hi, ok_bind, e2]
    exact if_neg (by simp [h2])
  unfold prepare dimensionless
  simp only [ok_bind]
  rcases radius with - | - | r'
  · have hr0 : r = 0 := by simpa [shiftBy] using hr.symm
    simp only [shiftTimes, ok_bind]
    rw [hm p.2 (by rw [h1, hr0]; simp) rfl]
    rfl
  · simp [shiftBy] at hr
  · have hr0 : r' = r := by simpa [shiftBy] using hr
    subst hr0
    simp only [shiftTimes, ok_bind]
    rw [hm { p.2 with t := p.2.t.map (· - r') } (by rw [← h1]) rfl]
    rfl

/-- **C62**: the data for waveforms that fit together.  The times are those of the waveforms (shifted, for SpECTRE, by the radius), without those that are not later than all before (C06), and in the row of
each of them are the modes of all fields for this time: those of the waveform with the name of the field, multiplied by the factor of the convention, and zero where it has none; the shear is from the complex
conjugate of the strain. -/
theorem create_spec {wms : List (String × WModes)} {t : List ℝ} {L : Int} (hf : Fit wms t L) (radius : Option (Option ℝ)) (r : ℝ) (hr : shiftBy radius = some r) (convention : String) (F : List ℝ)
    (hF : factors convention = .ok F) :
    ∃ b idx, create convention none radius wms = .ok b ∧ Monotonic.monotonicIndices (t.map (· - r)) = .ok idx ∧ Monotonic.monotonize (t.map (· - r)) = .ok b.t ∧ b.ellMax = L ∧
      b.t.length = idx.length ∧ (∀ c, (b.data c).length = idx.length) ∧
      ∀ (i j : Nat), idx[i]? = some j → b.t[i]? = t[j]?.map (· - r) ∧ ∀ ell m : Int, 0 ≤ ell → ell ≤ L → |m| ≤ ell →
        (∀ n : Fin 5, mode b n.castSucc i ell m = ((wms.lookup (label n)).map fun w => ((F.getD n 0 : ℝ) : ℂ) * wmode w j ell m).getD 0) ∧
        mode b 5 i ell m = (((wms.lookup "h").orElse fun _ => wms.lookup "Strain").map fun w => ((F.getD 5 0 : ℝ) : ℂ) * Charges.bar (-2) (wmode w j) ell m).getD 0 := by
  obtain ⟨idx, hi⟩ := (Props.Monotonic.monotonicIndices_ok_iff (t.map (· - r))).mpr (by simpa using hf.some_times)
  have hlt := indices_lt hi
  obtain ⟨k1, k2⟩ := keep_get idx _ hlt
  rw [List.length_map] at hlt
  have hprep := Props.Compare.mapM_ok (prepare none radius) (fun p => (p.1, { p.2 with t := keep idx (t.map (· - r)), data := keep idx p.2.data })) wms fun p hp => prepare_ok hf hr hi p hp
  let g : WModes → WModes := fun w => { w with t := keep idx (t.map (· - r)), data := keep idx w.data }
  have hl : ∀ k, (wms.map fun p => (p.1, g p.2)).lookup k = (wms.lookup k).map g := fun k => lookup_map g wms k
  have hg : ∀ k, ∀ v ∈ (wms.lookup k).map g, v.ellMax = L ∧ 0 ≤ v.ellMin ∧ v.ellMin ≤ L ∧ v.data.length = idx.length := by
    intro k v hv
    obtain ⟨w, hw, rfl⟩ := Option.mem_map.mp hv
    obtain ⟨p, hp, rfl⟩ := lookup_mem hw
    refine ⟨hf.ellMax p hp, (hf.ellMin p hp).1, (hf.ellMin p hp).2, (keep_get idx _ ?_).1⟩
    rw [hf.rows p hp]
    exact hlt
  have hwm : ∀ w, w.data.length = t.length → ∀ i j : Nat, idx[i]? = some j → wmode (g w) i = wmode w j := by
    intro w hw i j hj
    have := (keep_get idx w.data (by rw [hw]; exact hlt)).2 i j hj
    funext ell m
    unfold wmode rowModes
    simp only [g, List.getD_eq_getElem?_getD, this]
  have hrow : ∀ k, ∀ w, wms.lookup k = some w → w.data.length = t.length := by
    intro k w hw
    obtain ⟨p, hp, rfl⟩ := lookup_mem hw
    exact hf.rows p hp
  -- the six fields
  obtain ⟨d4, a4, b4, c4⟩ := field_ok (F.getD 4 0) L idx.length _ (hg "Psi4")
  obtain ⟨d3, a3, b3, c3⟩ := field_ok (F.getD 3 0) L idx.length _ (hg "Psi3")
  obtain ⟨d2, a2, b2, c2⟩ := field_ok (F.getD 2 0) L idx.length _ (hg "Psi2")
  obtain ⟨d1, a1, b1, c1⟩ := field_ok (F.getD 1 0) L idx.length _ (hg "Psi1")
  obtain ⟨d0, a0, b0, c0⟩ := field_ok (F.getD 0 0) L idx.length _ (hg "Psi0")
  have hsg : ((wms.map fun p => (p.1, g p.2)).lookup "h").orElse (fun _ => (wms.map fun p => (p.1, g p.2)).lookup "Strain") = ((wms.lookup "h").orElse fun _ => wms.lookup "Strain").map g := by
    rw [hl, hl]
    cases wms.lookup "h" <;> rfl
  have hstrain : ∃ k, ((wms.lookup "h").orElse fun _ => wms.lookup "Strain") = wms.lookup k := by
    cases h : wms.lookup "h" with
    | none => exact ⟨"Strain", rfl⟩
    | some w => exact ⟨"h", by rw [h]; rfl⟩
  obtain ⟨ks, hks⟩ := hstrain
  obtain ⟨d5, a5, b5, c5⟩ := sigma_ok (F.getD 5 0) L idx.length (wms.map fun p => (p.1, g p.2)) (by rw [hsg, hks]; exact hg ks)
  rw [hsg] at c5
  cases hw : wms with
  | nil => exact absurd hw hf.some_waveforms
  | cons q rest =>
  rw [← hw]
  have hq : q ∈ wms := by rw [hw]; exact List.mem_cons_self
  refine ⟨Abd.mk (keep idx (t.map (· - r))) L ![d0, d1, d2, d3, d4, d5], idx, ?_, hi, ?_, rfl, k1, ?_, ?_⟩
  · have hck : wms.forM (fun p => checkTimes q.2.t p.2.t) = .ok () := by
      rw [Props.TransformKwargs.forM_ok]
      intro p hp
      unfold checkTimes
      rw [hf.times p hp, hf.times q hq, if_pos rfl, if_pos rfl]
    have e : create convention none radius wms = (do
        wms.forM fun p => checkTimes q.2.t p.2.t
        let ws ← wms.mapM (prepare none radius)
        let F ← factors convention
        build F (ws.headD ("", q.2)).2 ws) := by
      rw [hw]
      rfl
    have hhead : (wms.map fun p => (p.1, g p.2)).headD ("", q.2) = (q.1, g q.2) := by
      rw [hw]
      rfl
    rw [e, hck, ok_bind, hprep, ok_bind, hF, ok_bind]
    show build F ((wms.map fun p => (p.1, g p.2)).headD ("", q.2)).2 (wms.map fun p => (p.1, g p.2)) = _
    rw [hhead]
    have e1 : (g q.2).ellMax = L := hf.ellMax q hq
    have e2 : (g q.2).t = keep idx (t.map (· - r)) := rfl
    unfold build
    simp only [hl, e1, e2, k1, a0, a1, a2, a3, a4, a5, ok_bind, pure_eq_ok]
  · unfold Monotonic.monotonize
    rw [hi]
    rfl
  · intro c
    fin_cases c
    · exact b0
    · exact b1
    · exact b2
    · exact b3
    · exact b4
    · exact b5
  · intro i j hj
    have hil : i < idx.length := (List.getElem?_eq_some_iff.mp hj).1
    refine ⟨by rw [k2 i j hj, List.getElem?_map], fun ell m g1 g2 g3 => ⟨?_, ?_⟩⟩
    · have key : ∀ (k : String) (f : ℝ) (d : List (Row ℂ)), (d.getD i fun _ => 0) (lmIndex ell m 0) = (((wms.lookup k).map g).map fun w => (f : ℂ) * wmode w i ell m).getD 0 →
          (d.getD i fun _ => 0) (lmIndex ell m 0) = ((wms.lookup k).map fun w => (f : ℂ) * wmode w j ell m).getD 0 := by
        intro k f d h
        rw [h]
        cases hk : wms.lookup k with
        | none => rfl
        | some w => simp only [Option.map_some, Option.getD_some, hwm w (hrow k w hk) i j hj]
      intro n
      fin_cases n
      · exact key "Psi0" _ d0 (c0 i hil ell m g1 g2 g3)
      · exact key "Psi1" _ d1 (c1 i hil ell m g1 g2 g3)
      · exact key "Psi2" _ d2 (c2 i hil ell m g1 g2 g3)
      · exact key "Psi3" _ d3 (c3 i hil ell m g1 g2 g3)
      · exact key "Psi4" _ d4 (c4 i hil ell m g1 g2 g3)
    · refine (c5 i hil ell m g1 g2 g3).trans ?_
      rw [hks]
      cases hk : wms.lookup ks with
      | none => rfl
      | some w => simp only [Option.map_some, Option.getD_some, hwm w (hrow ks w hk) i j hj]

/-! ## The convention of SpEC -/

theorem indices_increasing (t : List ℝ) (hne : t ≠ []) (hy : t.Pairwise (· < ·)) : Monotonic.monotonicIndices t = .ok (List.range t.length) := by
  by_cases hdir : t.head hne < t.getLast hne
  · obtain ⟨idx, h, hs, hmem⟩ := Props.Monotonic.mem_monotonicIndices_increasing t hne hdir
    rw [h, Monotonic.eq_range_of_all hs ?_]
    intro i
    rw [hmem]
    constructor
    · rintro ⟨x, hx, -⟩
      exact (List.getElem?_eq_some_iff.mp hx).1
    · intro hi
      refine ⟨t[i], List.getElem?_eq_getElem hi, ?_⟩
      intro j hj z hz
      obtain ⟨hj', rfl⟩ := List.getElem?_eq_some_iff.mp hz
      exact List.pairwise_iff_getElem.mp hy j i hj' hi hj
  · cases t with
    | nil => exact absurd rfl hne
    | cons y0 l =>
      cases l with
      | nil => rfl
      | cons y1 l =>
        exfalso
        apply hdir
        show y0 < (y0 :: y1 :: l).getLast hne
        rw [List.getLast_cons (by simp)]
        exact (List.pairwise_cons.mp hy).1 _ (List.getLast_mem _)

noncomputable def specFactors : List ℝ := [2, -√2, 1, -1 / √2, 0.5, 0.5]

theorem factors_spec : factors "spec" = .ok specFactors := rfl
theorem factors_moreschi : factors "moreschi-boyle" = .ok [1, 1, 1, 1, 1, 1] := rfl

theorem sqrt_two_mul : ((√2 : ℝ) : ℂ) * (√2 : ℝ) = 2 := by
  rw [← Complex.ofReal_mul, Real.mul_self_sqrt (by norm_num)]
  norm_num

theorem sqrt_two_ne : ((√2 : ℝ) : ℂ) ≠ 0 := by
  intro h
  have := sqrt_two_mul
  rw [h] at this
  norm_num at this

theorem specFactor_eq (n : Fin 5) : ((specFactors.getD n 0 : ℝ) : ℂ) = specFactor n := by
  have h := sqrt_two_mul
  have h0 := sqrt_two_ne
  unfold specFactors specFactor
  fin_cases n
  · simp
  · show ((-√2 : ℝ) : ℂ) = 2 * (-1 / (√2 : ℝ)) ^ 1
    push_cast
    field_simp
    linear_combination -h
  · show ((1 : ℝ) : ℂ) = 2 * (-1 / (√2 : ℝ)) ^ 2
    push_cast
    field_simp
    linear_combination h
  · show ((-1 / √2 : ℝ) : ℂ) = 2 * (-1 / (√2 : ℝ)) ^ 3
    push_cast
    field_simp
    linear_combination -h
  · show ((0.5 : ℝ) : ℂ) = 2 * (-1 / (√2 : ℝ)) ^ 4
    push_cast
    field_simp
    generalize ((√2 : ℝ) : ℂ) = x at *
    linear_combination (0.5 * (x * x + 2)) * h

/-- **C62**: from the strain and the Weyl components in the convention of SpEC, at increasing times, to data in that of Moreschi and Boyle: `ψ_n = 2 (-1/√2)^n ψ_n`, `σ = h̄ / 2`, at the same times. -/
theorem create_converted {wms : List (String × WModes)} {t : List ℝ} {L : Int} (hf : Fit wms t L) (ht : t.Pairwise (· < ·)) (W : Nat → WModes) (H : WModes)
    (hW : ∀ n : Fin 5, wms.lookup (label n) = some (W n)) (hH : wms.lookup "h" = some H) :
    ∃ b, create "spec" none none wms = .ok b ∧ b.t = t ∧ b.ellMax = L ∧ (∀ c, (b.data c).length = t.length) ∧ Converted b W H := by
  obtain ⟨b, idx, h1, h2, h3, h4, h5, h6, h7⟩ := create_spec hf none 0 rfl "spec" _ factors_spec
  have e0 : t.map (· - (0 : ℝ)) = t := by simp
  rw [e0] at h2 h3
  rw [indices_increasing t hf.some_times ht] at h2
  have hidx := Except.ok.inj h2
  rw [Props.Monotonic.monotonize_id_increasing t hf.some_times ht] at h3
  have hbt := Except.ok.inj h3
  subst hidx
  simp only [List.length_range] at h5 h6
  have hj : ∀ i, i < b.t.length → (List.range t.length)[i]? = some i := fun i hi => List.getElem?_range (by omega)
  have hm : ∀ (k : String) w, wms.lookup k = some w → w.ellMax = L := by
    intro k w hw
    obtain ⟨p, hp, rfl⟩ := lookup_mem hw
    exact hf.ellMax p hp
  refine ⟨b, h1, hbt.symm, h4, h6, ?_, ?_, ?_⟩
  · intro n i hi ell m g1 g2 g3
    rw [((h7 i i (hj i hi)).2 ell m g1 (h4 ▸ g2) g3).1 n, hW n, ← specFactor_eq]
    rfl
  · intro i hi ell m g1 g2 g3
    rw [((h7 i i (hj i hi)).2 ell m g1 (h4 ▸ g2) g3).2, hH]
    show ((0.5 : ℝ) : ℂ) * _ = _
    push_cast
    ring
  · exact ⟨fun n hn => (hm _ _ (hW ⟨n, by omega⟩)).trans h4.symm, (hm _ _ hH).trans h4.symm⟩

theorem expansion_scale (s L : Int) (z : ℂ) (f : Int → Int → ℂ) (R : Quaternion ℝ) : expansion s L (fun ell m => z * f ell m) R = z * expansion s L f R := by
  unfold expansion
  simp only [Finset.mul_sum]
  exact Finset.sum_congr rfl fun _ _ => Finset.sum_congr rfl fun _ _ => by ring

theorem value_weyl {b : Abd} {W : Nat → WModes} {H : WModes} (h : Converted b W H) {l : Nat} (hl : l < b.t.length) (R : Quaternion ℝ) (n : Nat) (hn : n ≤ 4) :
    value b l R (Fin.ofNat 6 n) = specFactor n * expansion (2 - n) (W n).ellMax (wmode (W n) l) R := by
  obtain ⟨n, rfl⟩ : ∃ n' : Fin 5, (n' : Nat) = n := ⟨⟨n, by omega⟩, rfl⟩
  have e1 : Fin.ofNat 6 (n : Nat) = n.castSucc := by
    ext
    simp
  have e2 : spinOf n.castSucc = 2 - (n : Nat) := by fin_cases n <;> rfl
  rw [e1]
  unfold value
  rw [← expansion_scale, e2, h.ellMax.1 n hn]
  exact Props.AbdModes.expansion_congr (fun ell m g1 g2 g3 => h.weyl n l hl ell m g1 g2 g3) R

/-- **C62**: to convert and then to transform the data by the law of C61 is to transform the Weyl components by the law of C60 (conformal weight -3) and then to convert. -/
theorem weyl_commutes {b : Abd} {W : Nat → WModes} {H : WModes} (h : Converted b W H) {l : Nat} (hl : l < b.t.length) (g k alpha u : ℝ) (V A : Int → Int → ℂ) (L : Int) (R : Quaternion ℝ) (n : Fin 5) :
    specFactor n * (weylSum W n l (weylE g k u alpha V L A R) R * (k : ℂ) ^ (-3 : Int)) = newValue b g k alpha V A L R n.castSucc l u := by
  have hne : n.castSucc ≠ (5 : Fin 6) := by fin_cases n <;> decide
  unfold newValue
  rw [if_neg hne, Props.AbdModes.mix_congr (g := fun n => specFactor n * expansion (2 - n) (W n).ellMax (wmode (W n) l) R) (fun m hm => value_weyl h hl R m hm)]
  unfold Verif.Spec.AbdTransform.mix weylSum weylE
  generalize ethTime g k u alpha V L A R = e
  have hk : ((1 / k : ℝ) : ℂ) ^ 3 = (k : ℂ) ^ (-3 : Int) := by
    push_cast
    rw [one_div, inv_pow, zpow_neg]
    rfl
  rw [hk, mul_comm (_ ^ (-3 : Int)), ← mul_assoc]
  congr 1
  rw [Finset.mul_sum]
  refine Finset.sum_congr rfl fun j _ => ?_
  have hs : specFactor (n + j) = specFactor n * (-1 / (√2 : ℝ)) ^ j := by
    unfold specFactor
    rw [pow_add]
    ring
  show specFactor n * (_ * _ * expansion _ _ (wmode (W (n + j)) l) R) = _
  simp only [Fin.val_castSucc]
  rw [hs]
  have : (e / ((√2 : ℝ) : ℂ)) ^ j = (-e) ^ j * (-1 / ((√2 : ℝ) : ℂ)) ^ j := by
    rw [← mul_pow]
    congr 1
    ring
  rw [this]
  ring

/-- **C62**: ... and likewise for the strain (conformal weight -1) and the shear, for a real supertranslation. -/
theorem strain_commutes {b : Abd} {W : Nat → WModes} {H : WModes} (h : Converted b W H) {l : Nat} (hl : l < b.t.length) (g k alpha u : ℝ) (V A : Int → Int → ℂ) (L : Int)
    (hA : ∀ ell m, conj (A ell m) = (-1) ^ m.natAbs * A ell (-m)) (R : Quaternion ℝ) :
    conj ((expansion (-2) H.ellMax (wmode H l) R + shift Weights.h L A R) * (k : ℂ) ^ (-1 : Int)) / 2 = newValue b g k alpha V A L R 5 l u := by
  unfold newValue
  rw [if_pos rfl]
  unfold Verif.Spec.AbdTransform.shear value shift
  rw [if_pos rfl, map_mul, map_add, map_neg, GridMultiply.expansion_conj, GridMultiply.expansion_conj]
  have e1 : expansion (spinOf 5) b.ellMax (mode b 5 l) R = expansion 2 H.ellMax (Charges.bar (-2) (wmode H l)) R / 2 := by
    rw [h.ellMax.2, div_eq_inv_mul, ← expansion_scale]
    refine Props.AbdModes.expansion_congr (fun ell m g1 g2 g3 => ?_) R
    rw [h.shear l hl ell m g1 g2 g3]
    ring
  have e2 : expansion 2 L (Charges.bar (-2) fun ell m => 2 * Charges.ethbarGHP (-1) (Charges.ethbarGHP 0 A) ell m) R = 2 * expansion 2 L (Charges.ethGHP 1 (Charges.ethGHP 0 A)) R := by
    rw [← expansion_scale]
    refine Props.AbdModes.expansion_congr (fun ell m g1 g2 g3 => ?_) R
    unfold Charges.bar Charges.ethGHP Charges.ethbarGHP
    have hp : ((-1 : ℂ)) ^ (-2 + m).natAbs * (-1) ^ (-m).natAbs = 1 := by
      rw [← pow_add]
      refine Even.neg_one_pow ?_
      rw [Nat.even_iff]
      omega
    simp only [map_mul, map_neg, Complex.conj_ofReal, hA, neg_neg]
    have a1 : ((ell + -1) * (ell - -1 + 1) : Int) = (ell - 1) * (ell + 1 + 1) := by ring
    have a2 : ((ell + 0) * (ell - 0 + 1) : Int) = (ell - 0) * (ell + 0 + 1) := by ring
    have a3 : (starRingEnd ℂ) 2 = 2 := map_ofNat _ 2
    rw [a1, a2, a3]
    generalize ((√(((ell - 1) * (ell + 1 + 1) : Int) / 2) : ℝ) : ℂ) = x
    generalize ((√(((ell - 0) * (ell + 0 + 1) : Int) / 2) : ℝ) : ℂ) = y
    linear_combination (2 * x * y * A ell m) * hp
  have hk : conj ((k : ℂ) ^ (-1 : Int)) = ((1 / k : ℝ) : ℂ) := by
    rw [map_zpow₀, Complex.conj_ofReal, zpow_neg_one]
    push_cast
    rw [one_div]
  rw [e1, hk, show (-(-2) : Int) = 2 from rfl, e2]
  ring

/-- The conformal weights of waveforms with the radius scaled out. -/
theorem conformal_weights : (∀ n : Fin 5, Weights.conformalWeight (n + 1) true = .ok (-3)) ∧ Weights.conformalWeight Weights.h true = .ok (-1) := by
  refine ⟨?_, rfl⟩
  intro n
  fin_cases n <;> rfl

/-! ## The strain of the data -/

/-- The property `h` is `2 σ̄`. -/
theorem strain_mode (a : Abd) (i : Nat) (hi : i < (a.data 5).length) (ell m : Int) (h1 : 2 ≤ ell) (h2 : ell ≤ a.ellMax) (h3 : |m| ≤ ell) :
    wmode (strain a) i ell m = 2 * Charges.bar 2 (mode a 5 i) ell m := by
  have hk : lmIndex ell m 2 + lmIndex 2 (-2) 0 = lmIndex ell m 0 := by
    unfold lmIndex
    ring
  unfold wmode rowModes
  have e1 : (strain a).ellMin = 2 := rfl
  rw [e1, if_pos h1]
  have e2 : ((strain a).data.getD i fun _ => 0) (lmIndex ell m 2) = 2 * barRow 2 a.ellMax ((a.data 5)[i]) (lmIndex ell m 2 + lmIndex 2 (-2) 0) := by
    unfold strain
    simp only [List.getD_eq_getElem?_getD, List.getElem?_map, List.getElem?_eq_getElem hi, Option.map_some, Option.getD_some]
  rw [e2, hk, barRow_spec _ _ _ _ _ (by omega) h2 h3]
  unfold Charges.bar mode
  rw [List.getD_eq_getElem (a.data 5) _ hi]

theorem bar_bar (f : Int → Int → ℂ) (ell m : Int) : Charges.bar 2 (Charges.bar (-2) f) ell m = f ell m := by
  unfold Charges.bar
  rw [neg_neg, map_mul, map_pow, map_neg, map_one, Complex.conj_conj]
  have hp : ((-1 : ℂ)) ^ (2 + m).natAbs * (-1) ^ (-2 + -m).natAbs = 1 := by
    rw [← pow_add]
    refine Even.neg_one_pow ?_
    rw [Nat.even_iff]
    omega
  linear_combination f ell m * hp

/-- **C62**: the strain of the data that were made from waveforms in the convention of SpEC is the given strain. -/
theorem strain_roundtrip {b : Abd} {W : Nat → WModes} {H : WModes} (h : Converted b W H) (hr : (b.data 5).length = b.t.length) (i : Nat) (hi : i < b.t.length) (ell m : Int) (h1 : 2 ≤ ell) (h2 : ell ≤ H.ellMax)
    (h3 : |m| ≤ ell) : (strain b).t = b.t ∧ wmode (strain b) i ell m = wmode H i ell m := by
  refine ⟨rfl, ?_⟩
  rw [h.ellMax.2] at h2
  rw [strain_mode b i (by omega) ell m h1 h2 h3]
  have e : Charges.bar 2 (mode b 5 i) ell m = Charges.bar 2 (Charges.bar (-2) (wmode H i)) ell m / 2 := by
    unfold Charges.bar
    rw [h.shear i hi ell (-m) (by omega) h2 (by rwa [abs_neg])]
    unfold Charges.bar
    simp only [map_div₀, map_ofNat]
    ring
  rw [e, bar_bar]
  ring

/-- **C62** (finding): in the convention `"moreschi-boyle"` the strain is taken for the conjugate of the shear, and the property `h` of the data is twice the given one. -/
theorem strain_moreschi {wms : List (String × WModes)} {t : List ℝ} {L : Int} (hf : Fit wms t L) (ht : t.Pairwise (· < ·)) (H : WModes) (hH : wms.lookup "h" = some H) :
    ∃ b, create "moreschi-boyle" none none wms = .ok b ∧ ∀ i, i < t.length → ∀ ell m : Int, 2 ≤ ell → ell ≤ L → |m| ≤ ell → wmode (strain b) i ell m = 2 * wmode H i ell m := by
  obtain ⟨b, idx, h1, h2, h3, h4, h5, h6, h7⟩ := create_spec hf none 0 rfl "moreschi-boyle" _ factors_moreschi
  have e0 : t.map (· - (0 : ℝ)) = t := by simp
  rw [e0, indices_increasing t hf.some_times ht] at h2
  have hidx := Except.ok.inj h2
  subst hidx
  simp only [List.length_range] at h5 h6
  refine ⟨b, h1, fun i hi ell m g1 g2 g3 => ?_⟩
  rw [strain_mode b i (by rw [h6]; exact hi) ell m g1 (by omega) g3]
  have e : Charges.bar 2 (mode b 5 i) ell m = Charges.bar 2 (Charges.bar (-2) (wmode H i)) ell m := by
    have h8 := ((h7 i i (List.getElem?_range hi)).2 ell (-m) (by omega) g2 (by rwa [abs_neg])).2
    rw [hH] at h8
    have h9 : mode b 5 i ell (-m) = Charges.bar (-2) (wmode H i) ell (-m) := h8.trans (by
      show ((1 : ℝ) : ℂ) * _ = _
      push_cast
      ring)
    show _ * conj (mode b 5 i ell (-m)) = _ * conj (Charges.bar (-2) (wmode H i) ell (-m))
    rw [h9]
  rw [e, bar_bar]

/-! ## Masses, errors -/

/-- **C62**: with a mass the data are those of the waveforms that have been made dimensionless (C18), if none of them was. -/
theorem create_mass (convention : String) (M : ℝ) (radius : Option (Option ℝ)) (wms wms' : List (String × WModes)) (t : List ℝ) (ht : ∀ p ∈ wms, p.2.t = t) (hm : ∀ p ∈ wms, p.2.mOut = false)
    (h : wms.mapM (fun p => (dimensionless (some M) p.2).map fun w => (p.1, w)) = .ok wms') : create convention (some M) radius wms = create convention none radius wms' := by
  have key : ∀ (l l' : List (String × WModes)), (∀ p ∈ l, p.2.t = t) → (∀ p ∈ l, p.2.mOut = false) → l.mapM (fun p => (dimensionless (some M) p.2).map fun w => (p.1, w)) = .ok l' →
      (∀ p ∈ l', p.2.t = t.map (· / M)) ∧ l'.length = l.length ∧ l.mapM (prepare (some M) radius) = l'.mapM (prepare none radius) := by
    intro l
    induction l with
    | nil =>
      intro l' _ _ h
      have := Except.ok.inj h
      subst this
      exact ⟨by simp, rfl, rfl⟩
    | cons p l ih =>
      intro l' h1 h2 h3
      rw [List.mapM_cons] at h3
      cases hd : dimensionless (some M) p.2 with
      | error e =>
        rw [hd] at h3
        cases h3
      | ok w =>
        rw [hd] at h3
        cases hl : l.mapM (fun p => (dimensionless (some M) p.2).map fun w => (p.1, w)) with
        | error e =>
          rw [hl] at h3
          cases h3
        | ok l2 =>
          rw [hl] at h3
          have e3 := Except.ok.inj h3
          subst e3
          obtain ⟨i1, i2, i3⟩ := ih l2 (fun q hq => h1 q (List.mem_cons_of_mem _ hq)) (fun q hq => h2 q (List.mem_cons_of_mem _ hq)) hl
          have hw : w.t = t.map (· / M) := by
            unfold dimensionless at hd
            simp only [h2 p List.mem_cons_self, Bool.false_eq_true, if_false] at hd
            cases hu : Weights.unitScale p.2.dataType M with
            | error e =>
              rw [hu] at hd
              cases hd
            | ok f =>
              rw [hu] at hd
              have e4 := Except.ok.inj hd
              rw [← e4, ← h1 p List.mem_cons_self]
          refine ⟨?_, by simp [i2], ?_⟩
          · intro q hq
            rcases List.mem_cons.mp hq with rfl | hq
            · exact hw
            · exact i1 q hq
          · rw [List.mapM_cons, List.mapM_cons, i3]
            congr 1
            unfold prepare
            rw [hd]
            rfl
  obtain ⟨k1, k2, k3⟩ := key wms wms' ht hm h
  have hck : ∀ (l : List (String × WModes)) (ref : List ℝ), (∀ p ∈ l, p.2.t = ref) → l.forM (fun p => checkTimes ref p.2.t) = .ok () := by
    intro l ref hl
    rw [Props.TransformKwargs.forM_ok]
    intro p hp
    unfold checkTimes
    rw [hl p hp, if_pos rfl, if_pos rfl]
  cases wms with
  | nil =>
    have : wms' = [] := List.length_eq_zero_iff.mp k2
    rw [this]
    rfl
  | cons q rest =>
    cases wms' with
    | nil => simp at k2
    | cons q' rest' =>
      have e1 : q.2.t = t := ht q List.mem_cons_self
      have e2 : q'.2.t = t.map (· / M) := k1 q' List.mem_cons_self
      have f1 := hck (q :: rest) q.2.t (by rw [e1]; exact ht)
      have f2 := hck (q' :: rest') q'.2.t (by rw [e2]; exact k1)
      show ((q :: rest).forM (fun p => checkTimes q.2.t p.2.t) >>= _) = ((q' :: rest').forM (fun p => checkTimes q'.2.t p.2.t) >>= _)
      rw [f1, f2, ok_bind, ok_bind, k3]
      cases hws : (q' :: rest').mapM (prepare none radius) with
      | error e => rfl
      | ok ws =>
        rw [ok_bind, ok_bind]
        have hws' : ws ≠ [] := by
          intro h0
          rw [h0, List.mapM_cons] at hws
          cases hp : prepare none radius q' with
          | error e =>
            rw [hp] at hws
            cases hws
          | ok w =>
            rw [hp] at hws
            cases hr : rest'.mapM (prepare none radius) with
            | error e =>
              rw [hr] at hws
              cases hws
            | ok ws2 =>
              rw [hr] at hws
              cases Except.ok.inj hws
        cases ws with
        | nil => exact absurd rfl hws'
        | cons a b => rfl

/-- **C62**: no waveform at all, an unknown convention, files of SpECTRE without a radius. -/
theorem create_errors (convention : String) (chMass : Option ℝ) (radius : Option (Option ℝ)) {wms : List (String × WModes)} {t : List ℝ} {L : Int} (hf : Fit wms t L) :
    create convention chMass radius [] = .error .valueError ∧
    (convention ≠ "spec" → convention ≠ "moreschi-boyle" → (shiftBy radius).isSome → create convention none radius wms = .error .keyError) ∧
    create convention none (some none) wms = .error .typeError := by
  have hck : ∀ q ∈ wms, wms.forM (fun p => checkTimes q.2.t p.2.t) = .ok () := by
    intro q hq
    rw [Props.TransformKwargs.forM_ok]
    intro p hp
    unfold checkTimes
    rw [hf.times p hp, hf.times q hq, if_pos rfl, if_pos rfl]
  refine ⟨rfl, ?_, ?_⟩
  · intro h1 h2 h3
    obtain ⟨r, hr⟩ := Option.isSome_iff_exists.mp h3
    obtain ⟨idx, hi⟩ := (Props.Monotonic.monotonicIndices_ok_iff (t.map (· - r))).mpr (by simpa using hf.some_times)
    have hprep := Props.Compare.mapM_ok (prepare none radius) _ wms fun p hp => prepare_ok hf hr hi p hp
    have hF : factors convention = .error .keyError := by
      unfold factors
      rw [if_neg h2, if_neg h1]
    cases hw : wms with
    | nil => exact absurd hw hf.some_waveforms
    | cons q rest =>
      have hq := hck q (by rw [hw]; exact List.mem_cons_self)
      rw [hw] at hq hprep
      show ((q :: rest).forM (fun p => checkTimes q.2.t p.2.t) >>= _) = _
      rw [hq, ok_bind, hprep, ok_bind, hF]
      rfl
  · cases hw : wms with
    | nil => exact absurd hw hf.some_waveforms
    | cons q rest =>
      have hq := hck q (by rw [hw]; exact List.mem_cons_self)
      rw [hw] at hq
      show ((q :: rest).forM (fun p => checkTimes q.2.t p.2.t) >>= _) = _
      rw [hq, ok_bind, List.mapM_cons]
      rfl

theorem forM_error {α : Type} (f : α → Py Unit) (e : PyErr) : ∀ l : List α, (∀ p ∈ l, f p = .ok () ∨ f p = .error e) → (∃ p ∈ l, f p = .error e) → l.forM f = .error e
  | [], _, h => by simp at h
  | a :: l, h1, h2 => by
    show (f a >>= fun _ => l.forM f) = _
    rcases h1 a List.mem_cons_self with h | h
    · rw [h, ok_bind]
      refine forM_error f e l (fun p hp => h1 p (List.mem_cons_of_mem _ hp)) ?_
      obtain ⟨p, hp, hpe⟩ := h2
      rcases List.mem_cons.mp hp with rfl | hp
      · rw [h] at hpe
        cases hpe
      · exact ⟨p, hp, hpe⟩
    · rw [h]
      rfl

/-- **C62** (finding): waveforms with different times (but equally many) are rejected, but not with the `ValueError` and its message about the times: to format the message the code indexes a list with a string. -/
theorem create_times (convention : String) (chMass : Option ℝ) (radius : Option (Option ℝ)) (wms : List (String × WModes)) (n : Nat) (hn : ∀ p ∈ wms, p.2.t.length = n)
    (hd : ∃ p ∈ wms, ∃ q ∈ wms, p.2.t ≠ q.2.t) : create convention chMass radius wms = .error .typeError := by
  cases hw : wms with
  | nil =>
    obtain ⟨p, hp, -⟩ := hd
    rw [hw] at hp
    simp at hp
  | cons q rest =>
    rw [← hw]
    have hq : q ∈ wms := by rw [hw]; exact List.mem_cons_self
    have hc : ∀ p ∈ wms, checkTimes q.2.t p.2.t = if q.2.t = p.2.t then .ok () else .error .typeError := by
      intro p hp
      unfold checkTimes
      rw [if_pos (by rw [hn q hq, hn p hp])]
    have hfm : wms.forM (fun p => checkTimes q.2.t p.2.t) = .error .typeError := by
      refine forM_error _ _ wms ?_ ?_
      · intro p hp
        rw [hc p hp]
        split_ifs
        · exact .inl rfl
        · exact .inr rfl
      · by_contra hcon
        push Not at hcon
        have hall : ∀ p ∈ wms, q.2.t = p.2.t := by
          intro p hp
          by_contra hne
          exact hcon p hp (by rw [hc p hp, if_neg hne])
        obtain ⟨a, ha, b, hb, hab⟩ := hd
        exact hab ((hall a ha).symm.trans (hall b hb))
    have e : create convention chMass radius wms = (wms.forM (fun p => checkTimes q.2.t p.2.t) >>= fun _ => do
        let ws ← wms.mapM (prepare chMass radius)
        let F ← factors convention
        build F (ws.headD ("", q.2)).2 ws) := by
      rw [hw]
      rfl
    rw [e, hfm]
    rfl

/-! ## Interpolation -/

theorem argmin_first : ∀ (l : List ℝ) (j : Nat), j < ComMotion.argmin l → l.getD (ComMotion.argmin l) 0 < l.getD j 0
  | [], j, h => by simp [ComMotion.argmin] at h
  | [a], j, h => by simp [ComMotion.argmin] at h
  | a :: b :: l, j, h => by
    have ih := argmin_first (b :: l)
    rw [ComMotion.argmin] at h ⊢
    split_ifs at h ⊢ with hc
    · rw [List.getD_cons_succ]
      cases j with
      | zero => simpa using hc
      | succ j =>
        rw [List.getD_cons_succ]
        exact ih j (by omega)
    · omega

/-- **C62**: no extrapolation: of the (increasing) times asked for only those are used that lie between the first and the last time of the data, and at most two of these are lost: the one that is nearest to the
first time, and the one that is nearest to the last. -/
theorem select_times (ts : List ℝ) (hne : ts ≠ []) (hs : ts.Pairwise (· < ·)) (first last : ℝ) :
    ∃ out, selectTimes ts first last = .ok out ∧ out.Sublist ts ∧ (∀ x ∈ out, first < x ∧ x < last) ∧
      ∀ x ∈ ts, first < x → x < last → x ∈ out ∨ (∀ y ∈ ts, |x - first| ≤ |y - first|) ∨ ∀ y ∈ ts, |x - last| ≤ |y - last| := by
  unfold selectTimes
  rw [if_neg hne]
  have hmono : ∀ i j (hi : i < ts.length) (hj : j < ts.length), i < j → ts[i] < ts[j] := fun i j hi hj hij => List.pairwise_iff_getElem.mp hs i j hi hj hij
  have near : ∀ u : ℝ, ∃ k, ∃ hk : k < ts.length, ComMotion.argmin (ts.map fun t => |t - u|) = k ∧ (∀ j (hj : j < ts.length), |ts[k] - u| ≤ |ts[j] - u|) ∧
      ∀ j (hj : j < ts.length), j < k → |ts[k] - u| < |ts[j] - u| := by
    intro u
    have h1 := Verif.Lemmas.ComMotion.argmin_lt (ts.map fun t => |t - u|) (by simpa using hne)
    have h2 := Verif.Lemmas.ComMotion.argmin_le (ts.map fun t => |t - u|)
    have h3 := argmin_first (ts.map fun t => |t - u|)
    generalize ComMotion.argmin (ts.map fun t => |t - u|) = k at *
    have h1' := h1
    rw [List.length_map] at h1
    rw [List.getD_eq_getElem _ _ h1', List.getElem_map] at h2
    refine ⟨k, h1, rfl, fun j hj => h2 _ (List.mem_map.mpr ⟨ts[j], List.getElem_mem _, rfl⟩), fun j hj hjk => ?_⟩
    have := h3 j hjk
    rwa [List.getD_eq_getElem _ _ h1', List.getElem_map, List.getD_eq_getElem _ _ (by simpa using hj), List.getElem_map] at this
  obtain ⟨a, ha, ea, ha1, ha2⟩ := near first
  obtain ⟨b, hb, eb, hb1, hb2⟩ := near last
  simp only [ea, eb, Nat.add_sub_cancel]
  have hmem : ∀ x, x ∈ (ts.take b).drop (a + 1) ↔ ∃ j, ∃ hj : j < ts.length, a < j ∧ j < b ∧ ts[j] = x := by
    intro x
    rw [List.mem_iff_getElem]
    simp only [List.getElem_drop, List.getElem_take, List.length_drop, List.length_take]
    constructor
    · rintro ⟨i, hi, h⟩
      exact ⟨a + 1 + i, by omega, by omega, by omega, h⟩
    · rintro ⟨j, hj, h1, h2, h3⟩
      refine ⟨j - (a + 1), by omega, ?_⟩
      have : a + 1 + (j - (a + 1)) = j := by omega
      simp only [this]
      exact h3
  refine ⟨_, rfl, (List.drop_sublist _ _).trans (List.take_sublist _ _), ?_, ?_⟩
  · intro x hx
    obtain ⟨j, hj, h1, h2, rfl⟩ := (hmem x).mp hx
    constructor
    · by_contra hcon
      rw [not_lt] at hcon
      have := ha1 j hj
      have h4 := hmono a j ha hj h1
      rw [abs_of_nonpos (by linarith), abs_of_nonpos (by linarith)] at this
      linarith
    · by_contra hcon
      rw [not_lt] at hcon
      have := hb2 j hj h2
      have h4 := hmono j b hj hb h2
      rw [abs_of_nonneg (by linarith), abs_of_nonneg (by linarith)] at this
      linarith
  · intro x hx h1 h2
    obtain ⟨j, hj, rfl⟩ := List.mem_iff_getElem.mp hx
    rcases lt_trichotomy j a with h3 | rfl | h3
    · exfalso
      have := ha2 j hj h3
      have h4 := hmono j a hj ha h3
      rw [abs_of_nonneg (by linarith), abs_of_nonneg (by linarith)] at this
      linarith
    · right
      left
      intro y hy
      obtain ⟨i, hi, rfl⟩ := List.mem_iff_getElem.mp hy
      exact ha1 i hi
    · rcases lt_trichotomy j b with h5 | rfl | h5
      · exact .inl ((hmem _).mpr ⟨j, hj, h3, h5, rfl⟩)
      · right
        right
        intro y hy
        obtain ⟨i, hi, rfl⟩ := List.mem_iff_getElem.mp hy
        exact hb1 i hi
      · exfalso
        have := hb1 j hj
        have h4 := hmono b j hb hj h5
        rcases le_total last ts[b] with h6 | h6
        · linarith
        · rw [abs_of_nonpos (by linarith), abs_of_nonpos (by linarith)] at this
          linarith

/-- **C62** (finding): asked for the times of the data themselves the function leaves out the first and the last of them. -/
theorem select_own (t : List ℝ) (hs : t.Pairwise (· < ·)) (first last : ℝ) (h1 : t.head? = some first) (h2 : t.getLast? = some last) :
    selectTimes t first last = .ok (t.dropLast.drop 1) := by
  have hne : t ≠ [] := by
    rintro rfl
    simp at h1
  unfold selectTimes
  rw [if_neg hne]
  have e1 : ComMotion.argmin (t.map fun x => |x - first|) = 0 := Verif.Lemmas.ComMotion.nearest_eq t hs first 0 (by rw [← List.head?_eq_getElem?, h1])
  have e2 : ComMotion.argmin (t.map fun x => |x - last|) = t.length - 1 := Verif.Lemmas.ComMotion.nearest_eq t hs last _ (by rw [← List.getLast?_eq_getElem?, h2])
  simp only [e1, e2, Nat.add_sub_cancel, List.dropLast_eq_take]

/-- **C62**: at a time that the data have the interpolated data have the same modes. -/
theorem interpolate_common {spline : List (ℝ × ℂ) → ℝ → ℂ} (hs : AbdModes.Spec.Interpolates spline) (a : Abd) (ha : Good a) (ts : List ℝ) (i j : Nat) (hi : i < ts.length) (hj : j < a.t.length) (h : ts[i] = a.t[j]) (c : Fin 6)
    (ell m : Int) : (interpolate spline a ts).t = ts ∧ ((interpolate spline a ts).data c).length = ts.length ∧ mode (interpolate spline a ts) c i ell m = mode a c j ell m := by
  refine ⟨rfl, by simp [interpolate], ?_⟩
  have hr : j < (a.data c).length := by
    rw [ha.rows]
    exact hj
  unfold mode interpolate
  simp only [List.getD_eq_getElem?_getD, List.getElem?_map, List.getElem?_eq_getElem hi, List.getElem?_eq_getElem hr, Option.map_some, Option.getD_some]
  rw [h]
  refine hs _ ?_ (a.t[j], (a.data c)[j] (lmIndex ell m 0)) ?_
  · rw [List.map_fst_zip (by rw [List.length_map, ha.rows])]
    exact ha.increasing
  · rw [List.mem_iff_getElem]
    refine ⟨j, by simp [ha.rows]; exact hj, ?_⟩
    simp

/-! ## An example -/

/-- A strain with `ell` from 2 to 3 and a Weyl component with all `ell`, at two times. -/
def sampleH : WModes := { t := [0, 1], dataType := Weights.h, inertial := true, rOut := true, mOut := true, ellMin := 2, ellMax := 3, data := [fun k => k, fun k => 2 * k], frame := [] }
def samplePsi : WModes := { t := [0, 1], dataType := Weights.psi4, inertial := true, rOut := true, mOut := true, ellMin := 0, ellMax := 3, data := [fun k => 1 + k, fun _ => 5], frame := [] }
def sample : List (String × WModes) := [("h", sampleH), ("Psi4", samplePsi), ("Psi3", samplePsi), ("Psi2", samplePsi), ("Psi1", samplePsi), ("Psi0", samplePsi)]

theorem sample_fit : Fit sample [0, 1] 3 := by
  have : ∀ p ∈ sample, p.2 = sampleH ∨ p.2 = samplePsi := by
    intro p hp
    simp only [sample, List.mem_cons, List.not_mem_nil, or_false] at hp
    rcases hp with rfl | rfl | rfl | rfl | rfl | rfl
    · exact .inl rfl
    all_goals exact .inr rfl
  refine ⟨?_, ?_, ?_, ?_, by simp, by simp [sample]⟩
  all_goals
    intro p hp
    rcases this p hp with h | h <;> rw [h]
  all_goals first | rfl | exact ⟨by norm_num [sampleH, samplePsi], by norm_num [sampleH, samplePsi]⟩

/-- The hypotheses of `create_spec` and `create_converted` can be met: the mode `(2, -2)` of `psi4` at the second time is 5, halved. -/
example : ∃ b, create "spec" none none sample = .ok b ∧ b.t = [0, 1] ∧ Converted b (fun _ => samplePsi) sampleH ∧ mode b 4 1 2 (-2) = 5 / 2 := by
  obtain ⟨b, h1, h2, h3, h4, h5⟩ := create_converted sample_fit (by simp) (fun _ => samplePsi) sampleH (by intro n; fin_cases n <;> rfl) rfl
  refine ⟨b, h1, h2, h5, ?_⟩
  have := h5.weyl 4 1 (by simp [h2]) 2 (-2) (by norm_num) (by rw [h3]; norm_num) (by norm_num)
  refine this.trans ?_
  rw [← specFactor_eq]
  have e : wmode samplePsi 1 2 (-2) = 5 := rfl
  rw [e]
  show ((0.5 : ℝ) : ℂ) * 5 = _
  push_cast
  norm_num

/-- Two waveforms with different times. -/
example : create "spec" none none [("h", sampleH), ("Psi4", { samplePsi with t := [0, 2] })] = .error .typeError :=
  create_times _ _ _ _ 2 (by
    intro p hp
    simp only [List.mem_cons, List.not_mem_nil, or_false] at hp
    rcases hp with rfl | rfl <;> rfl) ⟨("h", sampleH), by simp, ("Psi4", { samplePsi with t := [0, 2] }), by simp, by simp [sampleH]⟩

/-- Waveforms with mass. -/
example : create "spec" (some 2) none [("Psi4", { samplePsi with mOut := false })] = create "spec" none none [("Psi4", { samplePsi with t := [0 / 2, 1 / 2], data := samplePsi.data.map fun row => fun i => row i * (((2 : ℝ) ^ (1 : Int) : ℝ) : ℂ) })] :=
  create_mass _ _ _ _ _ [0, 1] (by simp [samplePsi]) (by simp) rfl

example : selectTimes [0, 1, 2] 0 2 = .ok [1] := select_own [0, 1, 2] (by norm_num) 0 2 rfl rfl

end Verif.Props.CreateAbd
