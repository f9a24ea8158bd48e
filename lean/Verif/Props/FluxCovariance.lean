import Verif.Props.FluxIntegral
import Verif.Props.GridBoost
import Verif.Lemmas.Bms
import Verif.Props.Rotation
import Verif.Props.AbdCompose

/-!
# C64: the fluxes of a rotated waveform
-/

namespace Verif.Props.FluxCovariance
open Real Verif.Flux Verif.Wigner ComplexConjugate Verif.GridMultiply Verif.GridMultiply.Spec Verif.Spec.Sphere Verif.Spec.Flux Verif.Sphere Verif.Slicing Verif.Spec.Slicing Verif.Props.FluxIntegral
open Verif.AbdTransform (rotateVec)
open Verif.GridModes.Spec (dir)

/-- The integral of a function of spin weight zero. -/
theorem sphere_expansion (L : Int) (hL : 0 ≤ L) (c : Int → Int → ℂ) : sphere (expansion 0 L c) = (√(4 * π) : ℝ) * c 0 0 := by
  have e := sphere_sum (Finset.Icc 0 L) (fun ell R => ∑ m ∈ Finset.Icc (-ell) ell, c ell m * Y 0 ell m R) fun ell _ => Cont.sum fun m hm => by
    rw [Finset.mem_Icc] at hm
    exact Cont.smul _ (Y_cont 0 ell m hm.1 hm.2)
  have e1 : sphere (expansion 0 L c) = sphere fun R => ∑ ell ∈ Finset.Icc 0 L, ∑ m ∈ Finset.Icc (-ell) ell, c ell m * Y 0 ell m R := rfl
  rw [e1, e]
  have e2 : ∀ ell ∈ Finset.Icc 0 L, sphere (fun R => ∑ m ∈ Finset.Icc (-ell) ell, c ell m * Y 0 ell m R) = ∑ m ∈ Finset.Icc (-ell) ell, c ell m * (if ell = 0 then ((√(4 * π) : ℝ) : ℂ) else 0) := by
    intro ell hell
    rw [Finset.mem_Icc] at hell
    rw [sphere_sum _ _ fun m hm => by
      rw [Finset.mem_Icc] at hm
      exact Cont.smul _ (Y_cont 0 ell m hm.1 hm.2)]
    refine Finset.sum_congr rfl fun m hm => ?_
    rw [Finset.mem_Icc] at hm
    rw [sphere_smul, sphere_Y ell m hell.1 hm.1 hm.2]
    split <;> simp
  rw [Finset.sum_congr rfl e2, Finset.sum_eq_single_of_mem 0 (Finset.mem_Icc.2 ⟨le_rfl, hL⟩)]
  · simp
    ring
  · intro ell _ h
    simp [h]

/-- It does not change when the function is rotated. -/
theorem sphere_rotated (L : Int) (hL : 0 ≤ L) (c : Int → Int → ℂ) (Q : Quaternion ℝ) : sphere (fun R => expansion 0 L c (Q * R)) = sphere (expansion 0 L c) := by
  have e : (fun R => expansion 0 L c (Q * R)) = expansion 0 L (fun ell => Verif.Spec.Rotation.rot ell Q (c ell)) := by
    funext R
    exact Props.GridModes.expansion_rotated 0 L c Q R
  rw [e, sphere_expansion L hL, sphere_expansion L hL]
  have e0 : Dlm 0 Q 0 0 = 1 := by simp [Dlm, D, coef, nu]
  simp [Verif.Spec.Rotation.rot, e0]

theorem fieldR_expansion (s a b : Int) (ha : 0 ≤ a) (f : Int → Int → ℂ) (R : Quaternion ℝ) : fieldR s a b f R = expansion s b (fun ell m => if a ≤ ell then f ell m else 0) R := by
  unfold fieldR expansion
  have hsub : Finset.Icc a b ⊆ Finset.Icc 0 b := Finset.Icc_subset_Icc_left ha
  rw [← Finset.sum_subset hsub]
  · refine Finset.sum_congr rfl fun ell hell => Finset.sum_congr rfl fun m _ => ?_
    rw [Finset.mem_Icc] at hell
    simp only [if_pos hell.1]
  · intro ell h1 h2
    rw [Finset.mem_Icc] at h1
    have : ¬ a ≤ ell := fun h => h2 (Finset.mem_Icc.2 ⟨h, h1.2⟩)
    refine Finset.sum_eq_zero fun m _ => ?_
    simp only [if_neg this, zero_mul]

theorem fieldR_rotated (s a b : Int) (ha : 0 ≤ a) (f g : Int → Int → ℂ) (Q : Quaternion ℝ) (h : ∀ ell m, a ≤ ell → ell ≤ b → -ell ≤ m → m ≤ ell → g ell m = Verif.Spec.Rotation.rot ell Q (f ell) m) (R : Quaternion ℝ) :
    fieldR s a b g R = fieldR s a b f (Q * R) := by
  rw [fieldR_expansion s a b ha f, Props.GridModes.expansion_rotated, fieldR_expansion s a b ha]
  unfold expansion
  refine Finset.sum_congr rfl fun ell hell => Finset.sum_congr rfl fun m hm => ?_
  rw [Finset.mem_Icc] at hell hm
  congr 1
  by_cases hc : a ≤ ell
  · simp only [if_pos hc]
    exact h ell m hc hell.2 hm.1 hm.2
  · simp [if_neg hc, Verif.Spec.Rotation.rot]

/-- The direction of a grid rotor. -/
theorem dir_rotor (i : Fin 3) (θ φ : ℝ) : dir (rotor θ φ) i = nHat i θ φ := by
  obtain ⟨h1, h2, h3, h4⟩ := rotor_parts θ φ
  have hs := sin_half θ
  have hc := cos_half θ
  have hs' := sin_half φ
  have hc' := cos_half φ
  have p1 := Real.sin_sq_add_cos_sq (θ / 2)
  have p2 := Real.sin_sq_add_cos_sq (φ / 2)
  unfold dir
  fin_cases i
  · show rotateVec _ _ 0 = _
    rw [Verif.Lemmas.Bms.rotateVec_0, h1, h2, h3, h4]
    simp [nHat]
    rw [hs, hc']
    ring
  · show rotateVec _ _ 1 = _
    rw [Verif.Lemmas.Bms.rotateVec_1, h1, h2, h3, h4]
    simp [nHat]
    rw [hs, hs']
    ring
  · show rotateVec _ _ 2 = _
    rw [Verif.Lemmas.Bms.rotateVec_2, h1, h2, h3, h4]
    simp [nHat]
    rw [hc]
    linear_combination (Real.cos (θ / 2) ^ 2 - Real.sin (θ / 2) ^ 2) * p2

/-- The transposed rotation. -/
theorem rotateVec_adjoint (Q : Quaternion ℝ) (v w : Fin 3 → ℝ) : ∑ i, rotateVec Q v i * w i = ∑ i, v i * rotateVec (star Q) w i := by
  rw [Fin.sum_univ_three, Fin.sum_univ_three]
  simp only [Verif.Lemmas.Bms.rotateVec_0, Verif.Lemmas.Bms.rotateVec_1, Verif.Lemmas.Bms.rotateVec_2, Quaternion.re_star, Quaternion.imI_star, Quaternion.imJ_star, Quaternion.imK_star]
  ring

theorem star_mul_unit {Q : Quaternion ℝ} (hQ : Verif.Spec.Rotation.UnitRotor Q) : star Q * Q = 1 := by
  have h : Quaternion.normSq Q = 1 := hQ
  rw [Quaternion.star_mul_self, h]
  rfl

theorem mul_star_unit {Q : Quaternion ℝ} (hQ : Verif.Spec.Rotation.UnitRotor Q) : Q * star Q = 1 := by
  have h : Quaternion.normSq Q = 1 := hQ
  rw [Quaternion.self_mul_star, h]
  rfl

/-- Rotating the vector and the direction does not change their product. -/
theorem dir_rotated {Q : Quaternion ℝ} (hQ : Verif.Spec.Rotation.UnitRotor Q) (v : Fin 3 → ℝ) (R : Quaternion ℝ) : ∑ i, rotateVec Q v i * dir (Q * R) i = ∑ i, v i * dir R i := by
  rw [rotateVec_adjoint]
  have e : rotateVec (star Q) (dir (Q * R)) = dir R := by
    unfold dir
    rw [Props.AbdTransform.rotateVec_mul, ← Props.AbdTransform.rotateVec_mul, star_mul_unit hQ, Props.AbdTransform.rotateVec_one]
  rw [e]

theorem unit_iff (R : Quaternion ℝ) : Verif.Spec.Rotation.UnitRotor R ↔ Spec.Unit R := by
  unfold Verif.Spec.Rotation.UnitRotor Spec.Unit
  rw [Quaternion.normSq_def']

/-- The integral of the product of two fields and a component of the direction, when everything is rotated. -/
theorem sphere_product_rotated (s a b : Int) (ha : 0 ≤ a) (f : Int → Int → ℂ) (v : Fin 3 → ℝ) (Q : Quaternion ℝ) (hQ : Verif.Spec.Rotation.UnitRotor Q) :
    sphere (fun R => conj (fieldR s a b f (Q * R)) * fieldR s a b f (Q * R) * ((∑ i, v i * dir (Q * R) i : ℝ) : ℂ)) =
      sphere (fun R => conj (fieldR s a b f R) * fieldR s a b f R * ((∑ i, v i * dir R i : ℝ) : ℂ)) := by
  set c : Int → Int → ℂ := fun ell m => if a ≤ ell then f ell m else 0 with hc
  obtain ⟨d, hd⟩ := Verif.GridMultiply.expansion_mul (-s) s b b (Charges.bar s c) c
  obtain ⟨e, he⟩ := Verif.GridMultiply.expansion_mul (-s + s) 0 (b + b) 1 d (Verif.GridModes.vDotR v)
  have hall : ∀ R, Spec.Unit R → conj (fieldR s a b f R) * fieldR s a b f R * ((∑ i, v i * dir R i : ℝ) : ℂ) = expansion 0 (b + b + 1) e R := by
    intro R hR
    rw [fieldR_expansion s a b ha f, Verif.GridMultiply.expansion_conj, hd R hR, ← Props.GridModes.vDotR_value, he R hR]
    congr 1
    ring
  by_cases hb : 0 ≤ b
  · have h1 : sphere (fun R => conj (fieldR s a b f (Q * R)) * fieldR s a b f (Q * R) * ((∑ i, v i * dir (Q * R) i : ℝ) : ℂ)) = sphere (fun R => expansion 0 (b + b + 1) e (Q * R)) := by
      refine sphere_congr fun R hR => ?_
      exact hall (Q * R) ((unit_iff _).1 (Verif.Rotation.unit_mul hQ ((unit_iff _).2 hR)))
    rw [h1, sphere_rotated _ (by omega)]
    exact (sphere_congr fun R hR => hall R hR).symm
  · have h0 : ∀ R, fieldR s a b f R = 0 := by
      intro R
      unfold fieldR
      rw [Finset.Icc_eq_empty (by omega), Finset.sum_empty]
    simp [h0]

/-- The same without the direction. -/
theorem sphere_rotated_square (s a b : Int) (ha : 0 ≤ a) (f g : Int → Int → ℂ) (Q : Quaternion ℝ) (hQ : Verif.Spec.Rotation.UnitRotor Q)
    (hrot : ∀ ell m, a ≤ ell → ell ≤ b → -ell ≤ m → m ≤ ell → g ell m = Verif.Spec.Rotation.rot ell Q (f ell) m) :
    sphere (fun R => conj (fieldR s a b g R) * fieldR s a b g R) = sphere (fun R => conj (fieldR s a b f R) * fieldR s a b f R) := by
  set c : Int → Int → ℂ := fun ell m => if a ≤ ell then f ell m else 0 with hc
  obtain ⟨d, hd⟩ := Verif.GridMultiply.expansion_mul (-s) s b b (Charges.bar s c) c
  have hall : ∀ R, Spec.Unit R → conj (fieldR s a b f R) * fieldR s a b f R = expansion 0 (b + b) d R := by
    intro R hR
    rw [fieldR_expansion s a b ha f, Verif.GridMultiply.expansion_conj, hd R hR]
    congr 1
    ring
  simp only [fieldR_rotated s a b ha f g Q hrot]
  by_cases hb : 0 ≤ b
  · have h1 : sphere (fun R => conj (fieldR s a b f (Q * R)) * fieldR s a b f (Q * R)) = sphere (fun R => expansion 0 (b + b) d (Q * R)) := by
      refine sphere_congr fun R hR => ?_
      exact hall (Q * R) ((unit_iff _).1 (Verif.Rotation.unit_mul hQ ((unit_iff _).2 hR)))
    rw [h1, sphere_rotated _ (by omega)]
    exact (sphere_congr fun R hR => hall R hR).symm
  · have h0 : ∀ R, fieldR s a b f R = 0 := by
      intro R
      unfold fieldR
      rw [Finset.Icc_eq_empty (by omega), Finset.sum_empty]
    simp [h0]

/-- The components of the integral along a vector. -/
theorem along (a b : Int) (f : Int → Int → ℂ) (p : Fin 3 → ℝ)
    (h : ∀ i, ((p i : ℝ) : ℂ) = 1 / (16 * π) * solid fun θ φ => conj (field (-2) a b f θ φ) * field (-2) a b f θ φ * nHat i θ φ) (v : Fin 3 → ℝ) :
    ((∑ i, v i * p i : ℝ) : ℂ) = 1 / (16 * π) * sphere fun R => conj (fieldR (-2) a b f R) * fieldR (-2) a b f R * ((∑ i, v i * dir R i : ℝ) : ℂ) := by
  have hcont : ∀ i : Fin 3, Cont fun R => (v i : ℂ) * (conj (fieldR (-2) a b f R) * fieldR (-2) a b f R * (dir R i : ℂ)) := by
    intro i
    refine Cont.smul _ (Cont.mul (Cont.mul (Cont.conj (fieldR_cont _ _ _ _)) (fieldR_cont _ _ _ _)) ?_)
    obtain ⟨F, hF, hF'⟩ := nHat_cont i
    unfold Cont at hF ⊢
    simp only [dir_rotor]
    simpa only [hF'] using hF
  have e : sphere (fun R => conj (fieldR (-2) a b f R) * fieldR (-2) a b f R * ((∑ i, v i * dir R i : ℝ) : ℂ)) =
      ∑ i, sphere (fun R => (v i : ℂ) * (conj (fieldR (-2) a b f R) * fieldR (-2) a b f R * (dir R i : ℂ))) := by
    rw [← sphere_sum _ _ fun i _ => hcont i]
    congr 1
    funext R
    push_cast
    rw [Finset.mul_sum]
    refine Finset.sum_congr rfl fun i _ => ?_
    ring
  rw [e, Finset.mul_sum]
  push_cast
  refine Finset.sum_congr rfl fun i _ => ?_
  rw [h i, sphere_smul]
  have e2 : (solid fun θ φ => conj (field (-2) a b f θ φ) * field (-2) a b f θ φ * nHat i θ φ) = sphere (fun R => conj (fieldR (-2) a b f R) * fieldR (-2) a b f R * (dir R i : ℂ)) := by
    unfold sphere
    simp only [dir_rotor]
    rfl
  rw [e2]
  ring

theorem vector_rotated (a b : Int) (ha : 0 ≤ a) (f g : Int → Int → ℂ) (p p' : Fin 3 → ℝ)
    (h : ∀ i, ((p i : ℝ) : ℂ) = 1 / (16 * π) * solid fun θ φ => conj (field (-2) a b f θ φ) * field (-2) a b f θ φ * nHat i θ φ)
    (h' : ∀ i, ((p' i : ℝ) : ℂ) = 1 / (16 * π) * solid fun θ φ => conj (field (-2) a b g θ φ) * field (-2) a b g θ φ * nHat i θ φ)
    (Q : Quaternion ℝ) (hQ : Verif.Spec.Rotation.UnitRotor Q) (hrot : ∀ ell m, a ≤ ell → ell ≤ b → -ell ≤ m → m ≤ ell → g ell m = Verif.Spec.Rotation.rot ell Q (f ell) m) :
    p = rotateVec Q p' := by
  have key : ∀ v : Fin 3 → ℝ, ∑ i, v i * p' i = ∑ i, rotateVec Q v i * p i := by
    intro v
    have e1 := along a b g p' h' v
    have e2 := along a b f p h (rotateVec Q v)
    have e3 : (fun R => conj (fieldR (-2) a b g R) * fieldR (-2) a b g R * ((∑ i, v i * dir R i : ℝ) : ℂ)) =
        fun R => conj (fieldR (-2) a b f (Q * R)) * fieldR (-2) a b f (Q * R) * ((∑ i, rotateVec Q v i * dir (Q * R) i : ℝ) : ℂ) := by
      funext R
      rw [fieldR_rotated (-2) a b ha f g Q hrot, dir_rotated hQ]
    rw [e3, sphere_product_rotated (-2) a b ha f (rotateVec Q v) Q hQ, ← e2] at e1
    exact_mod_cast e1
  have e : p' = rotateVec (star Q) p := by
    funext j
    have := key (Pi.single j 1)
    rw [rotateVec_adjoint] at this
    simpa [Pi.single_apply] using this
  rw [e, ← Props.AbdTransform.rotateVec_mul, mul_star_unit hQ, Props.AbdTransform.rotateVec_one]

/-- C64: the momentum flux is a vector.  If the modes of `h'` at a time are those of `h` with respect to the basis that is rotated by `Q`, then the
momentum flux of `h'` has the components of the momentum flux of `h` with respect to the axes that are rotated by `Q`. -/
theorem momentum_flux_rotated (interp : WM ℝ Unit ℂ → List ℝ → WM ℝ Unit ℂ) (dt spin : Int) (dot : WM ℝ Unit ℂ → WM ℝ Unit ℂ)
    (w hd w' hd' : WM ℝ Unit ℂ) (hc : chooseHdot dt dot w = .ok hd) (hv : Valid hd) (hn : 2 ≤ hd.nCols) (hc' : chooseHdot dt dot w' = .ok hd') (hv' : Valid hd')
    (hmin : hd'.ellMin = hd.ellMin) (hmax : hd'.ellMax = hd.ellMax) (ht : hd'.t = hd.t) :
    ∃ P P', momentumFlux interp dt spin dot w = .ok P ∧ momentumFlux interp dt spin dot w' = .ok P' ∧ P.length = hd.t.length ∧ P'.length = hd.t.length ∧
      ∀ (k : Nat) (hk : k < P.length) (hk' : k < P'.length) (Q : Quaternion ℝ), Verif.Spec.Rotation.UnitRotor Q →
        (∀ ell m, hd.ellMin ≤ ell → ell ≤ hd.ellMax → -ell ≤ m → m ≤ ell → modesOf hd' k ell m = Verif.Spec.Rotation.rot ell Q (modesOf hd k ell) m) →
        (![P[k].1, P[k].2.1, P[k].2.2] : Fin 3 → ℝ) = rotateVec Q ![P'[k].1, P'[k].2.1, P'[k].2.2] := by
  have hn' : 2 ≤ hd'.nCols := by
    have h1 := hv.modes
    have h2 := hv'.modes
    rw [hmin, hmax, ← h1] at h2
    omega
  obtain ⟨P, e1, l1, i1⟩ := momentum_flux_integral interp dt spin dot w hd hc hv hn
  obtain ⟨P', e2, l2, i2⟩ := momentum_flux_integral interp dt spin dot w' hd' hc' hv' hn'
  refine ⟨P, P', e1, e2, l1, by rw [l2, ht], fun k hk hk' Q hQ hrot => ?_⟩
  have j1 := i1 k hk
  have j2 := i2 k hk'
  rw [hmin, hmax] at j2
  have ha : 0 ≤ hd.ellMin := hv.min
  generalize (![P[k].1, P[k].2.1, P[k].2.2] : Fin 3 → ℝ) = p at j1 ⊢
  generalize (![P'[k].1, P'[k].2.1, P'[k].2.2] : Fin 3 → ℝ) = p' at j2 ⊢
  exact vector_rotated hd.ellMin hd.ellMax ha _ _ p p' j1 j2 Q hQ hrot

/-- The modes of a waveform as the rotation functions see them: one array per time. -/
noncomputable def asWave (w : WM ℝ Unit ℂ) : Verif.Rotation.Wave :=
  ⟨w.ellMin, w.ellMax, w.data.map fun r i => r.getD i.toNat 0, .vec []⟩

/-- `w.rotate_decomposition_basis(Q)`: the same waveform, with the data that the function leaves in the array. -/
noncomputable def rotated (w : WM ℝ Unit ℂ) (Q : Quaternion ℝ) (D tmp : Verif.Modes.Row ℂ) : WM ℝ Unit ℂ :=
  { w with data := (Verif.Rotation.rotate (asWave w) (.quat Q) D tmp).1.data.map fun row => (List.range w.nCols).map fun i => row i }

theorem mode_asWave (w : WM ℝ Unit ℂ) (hv : Valid w) (k : Nat) (ell m : Int) (h1 : w.ellMin ≤ ell) (h2 : ell ≤ w.ellMax) (h3 : -ell ≤ m) (h4 : m ≤ ell) :
    Verif.Spec.Rotation.mode (asWave w) k ell m = modesOf w k ell m := by
  unfold Verif.Spec.Rotation.mode Verif.Spec.Flux.modesOf modeAt asWave
  simp only [List.getElem?_map]
  cases w.data[k]? with
  | none => rfl
  | some r => simp [List.getD_eq_getElem?_getD]

theorem rotated_modes (w : WM ℝ Unit ℂ) (hv : Valid w) (Q : Quaternion ℝ) (D tmp : Verif.Modes.Row ℂ) : Valid (rotated w Q D tmp) ∧
    ∀ k < w.data.length, ∀ ell m, w.ellMin ≤ ell → ell ≤ w.ellMax → -ell ≤ m → m ≤ ell → modesOf (rotated w Q D tmp) k ell m = Verif.Spec.Rotation.rot ell Q (modesOf w k ell) m := by
  have hr := (Props.Rotation.constant_rotation (asWave w) hv.min Q D tmp).2
  have hlen : (Verif.Rotation.rotate (asWave w) (.quat Q) D tmp).1.data.length = w.data.length := by
    rw [hr.2.2.1]
    simp [asWave]
  refine ⟨⟨hv.frame, ?_, ?_, hv.min, hv.max, hv.modes⟩, ?_⟩
  · show (List.map _ _).length = _
    rw [List.length_map, hlen, hv.rows]
    rfl
  · intro r h
    obtain ⟨row, _, rfl⟩ := List.mem_map.1 h
    simp [rotated]
  · intro k hk ell m h1 h2 h3 h4
    have hk' : k < (Verif.Rotation.rotate (asWave w) (.quat Q) D tmp).1.data.length := by omega
    have hm := hr.2.2.2 k ell m ⟨by simpa [asWave] using hk, h1, h2, h3, h4⟩
    have e : Verif.Spec.Rotation.rot ell Q (Verif.Spec.Rotation.mode (asWave w) k ell) m = Verif.Spec.Rotation.rot ell Q (modesOf w k ell) m := by
      unfold Verif.Spec.Rotation.rot
      refine Finset.sum_congr rfl fun n hn => ?_
      rw [Finset.mem_Icc] at hn
      rw [mode_asWave w hv k ell n h1 h2 hn.1 hn.2]
    rw [← e, ← hm]
    have hpos := Verif.Flux.lmIndex_nonneg hv.min h1 h3
    have hlt : Verif.Modes.lmIndex ell m w.ellMin < (w.nCols : Int) := by
      have := (Verif.Modes.lmIndex_block w.ellMin (And.intro h3 h4)).2
      have h5 := hv.min
      rw [hv.modes]
      nlinarith
    unfold Verif.Spec.Rotation.mode Verif.Spec.Flux.modesOf modeAt rotated
    rw [hr.1]
    simp only [List.getElem?_map, List.getElem?_eq_getElem hk', Option.map_some, Option.bind_some]
    rw [List.getElem?_eq_getElem (by simp; omega)]
    simp only [List.getElem_range, Option.map_some, Option.getD_some]
    have hi : ((Verif.Modes.lmIndex ell m w.ellMin).toNat : Int) = Verif.Modes.lmIndex ell m (asWave w).ellMin := by
      show _ = Verif.Modes.lmIndex ell m w.ellMin
      omega
    rw [hi]

/-- C64: `rotate_decomposition_basis` and the momentum flux.  The momentum flux of a rotated waveform is the same vector, with respect to the rotated axes. -/
theorem rotate_momentum_flux (interp : WM ℝ Unit ℂ → List ℝ → WM ℝ Unit ℂ) (spin : Int) (dot : WM ℝ Unit ℂ → WM ℝ Unit ℂ) (w : WM ℝ Unit ℂ) (hv : Valid w) (hn : 2 ≤ w.nCols)
    (Q : Quaternion ℝ) (hQ : Verif.Spec.Rotation.UnitRotor Q) (D tmp : Verif.Modes.Row ℂ) :
    ∃ P P', momentumFlux interp Weights.hdot spin dot w = .ok P ∧ momentumFlux interp Weights.hdot spin dot (rotated w Q D tmp) = .ok P' ∧ P.length = w.t.length ∧ P'.length = w.t.length ∧
      ∀ (k : Nat) (hk : k < P.length) (hk' : k < P'.length), (![P[k].1, P[k].2.1, P[k].2.2] : Fin 3 → ℝ) = rotateVec Q ![P'[k].1, P'[k].2.1, P'[k].2.2] := by
  obtain ⟨h1, h2⟩ := rotated_modes w hv Q D tmp
  obtain ⟨P, P', e1, e2, l1, l2, h⟩ := momentum_flux_rotated interp Weights.hdot spin dot w w (rotated w Q D tmp) (rotated w Q D tmp) rfl hv hn rfl h1 rfl rfl rfl
  refine ⟨P, P', e1, e2, l1, l2, fun k hk hk' => h k hk hk' Q hQ fun ell m a b c d => h2 k ?_ ell m a b c d⟩
  rw [hv.rows, ← l1]
  exact hk

/-- C64: the energy flux of a rotated waveform is the same. -/
theorem rotate_energy_flux (dot : WM ℝ Unit ℂ → WM ℝ Unit ℂ) (w : WM ℝ Unit ℂ) (hv : Valid w)
    (Q : Quaternion ℝ) (hQ : Verif.Spec.Rotation.UnitRotor Q) (D tmp : Verif.Modes.Row ℂ) :
    ∃ E, energyFlux Weights.hdot dot w = .ok E ∧ energyFlux Weights.hdot dot (rotated w Q D tmp) = .ok E ∧ E.length = w.t.length := by
  obtain ⟨h1, h2⟩ := rotated_modes w hv Q D tmp
  obtain ⟨E, e1, l1, i1⟩ := energy_flux_integral Weights.hdot 0 dot w w rfl hv (by simpa using hv.min)
  obtain ⟨E', e2, l2, i2⟩ := energy_flux_integral Weights.hdot 0 dot (rotated w Q D tmp) _ rfl h1 (by simpa using h1.min)
  have l3 : E'.length = E.length := by rw [l1, l2]; rfl
  refine ⟨E, e1, ?_, l1⟩
  rw [e2]
  congr 1
  refine List.ext_getElem l3 fun k hk hk' => ?_
  have j1 := i1 k hk'
  have j2 := i2 k hk
  have hk2 : k < w.data.length := by rw [hv.rows, ← l1]; exact hk'
  have e3 := sphere_rotated_square 0 w.ellMin w.ellMax hv.min (modesOf w k) (modesOf (rotated w Q D tmp) k) Q hQ fun ell m a b c d => h2 k hk2 ell m a b c d
  have e4 : (E'[k] : ℂ) = (E[k] : ℂ) := by
    rw [j1, j2]
    congr 1
  exact_mod_cast e4

/-- The hypotheses are met: the example waveform and a rotation by a half turn, which changes the components. -/
example (interp : WM ℝ Unit ℂ → List ℝ → WM ℝ Unit ℂ) (dot : WM ℝ Unit ℂ → WM ℝ Unit ℂ) :
    ∃ P P', momentumFlux interp Weights.hdot (-2) dot Props.Flux.sample = .ok P ∧ momentumFlux interp Weights.hdot (-2) dot (rotated Props.Flux.sample Props.Rotation.qi 0 0) = .ok P' ∧
      P.length = 2 ∧ P'.length = 2 ∧ ∀ (k : Nat) (hk : k < P.length) (hk' : k < P'.length), P'[k].2.2 = -P[k].2.2 := by
  obtain ⟨P, P', e1, e2, l1, l2, h⟩ := rotate_momentum_flux interp (-2) dot Props.Flux.sample Props.Flux.sample_valid (by decide) Props.Rotation.qi Props.Rotation.qi_unit 0 0
  refine ⟨P, P', e1, e2, l1, l2, fun k hk hk' => ?_⟩
  have := congrFun (h k hk hk') 2
  rw [Verif.Lemmas.Bms.rotateVec_2] at this
  have q1 : Props.Rotation.qi.re = 0 := rfl
  have q2 : Props.Rotation.qi.imI = 1 := rfl
  have q3 : Props.Rotation.qi.imJ = 0 := rfl
  have q4 : Props.Rotation.qi.imK = 0 := rfl
  simp [q1, q2, q3, q4] at this
  linarith

end Verif.Props.FluxCovariance
