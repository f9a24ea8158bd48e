import Verif.Lemmas.Parity

/-!
# C09: parity operations and projections
-/

namespace Verif.Props.Parity
open Verif.Modes Verif.Parity Verif.Spec.Parity ComplexConjugate

/-- The operations run exactly on waveforms of known data type with at least two modes; every
other waveform is refused with `ValueError`. -/
theorem conjugate_ok_iff (ax : Axis) (g : Row ℂ) (W : Wave) :
    (∃ V, conjugate ax g W = .ok V) ↔ W.known = true ∧ 2 ≤ W.nModes := by
  unfold conjugate
  by_cases h1 : W.known = false
  · simp [h1]
  · by_cases h2 : 2 ≤ W.nModes
    · simp [h1, h2]
    · simp [h1, h2]

theorem conjugate_refuses (ax : Axis) (g : Row ℂ) (W : Wave)
    (h : W.known = false ∨ W.nModes < 2) : conjugate ax g W = .error .valueError := by
  unfold conjugate
  by_cases h1 : W.known = false
  · rw [if_pos h1]
  · rw [if_neg h1, if_pos]
    rcases h with h | h
    · exact absurd h h1
    · omega

/-- Each operation returns the reflected modes (of the specification) and the reflected frame,
whatever the uninitialised array contained, and keeps everything else. -/
theorem conjugate_spec (ax : Axis) (g : Row ℂ) (W V : Wave) (h0 : 0 ≤ W.ellMin)
    (h : conjugate ax g W = .ok V) :
    V.known = W.known ∧ V.spin = W.spin ∧ V.ellMin = W.ellMin ∧ V.ellMax = W.ellMax ∧
      V.frame = frameConj ax W.frame ∧
      ∀ ell m, HasMode W ell m → mode V ell m = reflected ax W ell m := by
  unfold conjugate at h
  split at h
  · cases h
  · split at h
    · cases h
    · simp only [Except.ok.injEq] at h
      subst h
      refine ⟨rfl, rfl, rfl, rfl, rfl, ?_⟩
      intro ell m hm
      exact conjRow_spec ax g W h0 ell m hm

theorem frameConj_involutive (ax : Axis) (q : Quat) : frameConj ax (frameConj ax q) = q := by
  cases ax <;> simp [frameConj]

theorem nModes_congr {V W : Wave} (h1 : V.ellMin = W.ellMin) (h2 : V.ellMax = W.ellMax) :
    V.nModes = W.nModes := by
  unfold Wave.nModes; rw [h1, h2]

theorem hasMode_congr {V W : Wave} (h1 : V.ellMin = W.ellMin) (h2 : V.ellMax = W.ellMax)
    (ell m : Int) : HasMode V ell m ↔ HasMode W ell m := by
  unfold HasMode; rw [h1, h2]

theorem hasMode_neg {W : Wave} {ell m : Int} (h : HasMode W ell m) : HasMode W ell (-m) := by
  unfold HasMode at *; rw [abs_neg]; exact h

/-- The reflected modes of a waveform whose modes are `F` and whose spin is that of `W`. -/
theorem reflected_congr (ax : Axis) (V W : Wave) (hs : V.spin = W.spin) (F : Int → Int → ℂ)
    (hF : ∀ ell m, HasMode W ell m → mode V ell m = F ell m) (ell m : Int) (h : HasMode W ell m) :
    reflected ax V ell m = match ax with
      | .x => sgn m * conj (F ell m)
      | .y => conj (F ell m)
      | .z => sgn (ell + W.spin) * conj (F ell (-m))
      | .all => sgn (ell + W.spin + m) * conj (F ell (-m)) := by
  cases ax <;> simp only [reflected, hs]
  · rw [hF _ _ h]
  · rw [hF _ _ h]
  · rw [hF _ _ (hasMode_neg h)]
  · rw [hF _ _ (hasMode_neg h)]

theorem reflected_reflected (ax : Axis) (V W : Wave) (hs : V.spin = W.spin)
    (hV : ∀ ell m, HasMode W ell m → mode V ell m = reflected ax W ell m)
    (ell m : Int) (h : HasMode W ell m) : reflected ax V ell m = mode W ell m := by
  rw [reflected_congr ax V W hs _ hV ell m h]
  cases ax <;> simp only [reflected, map_mul, conj_sgn, Complex.conj_conj, neg_neg]
  · rw [← mul_assoc, sgn_mul_self, one_mul]
  · rw [← mul_assoc, sgn_mul_self, one_mul]
  · rw [show ell + W.spin + -m = -m + (ell + W.spin) by ring, sgn_add (-m), sgn_neg,
      sgn_add (ell + W.spin) m]
    rw [show sgn (ell + W.spin) * sgn m * (sgn m * sgn (ell + W.spin) * mode W ell m) =
      (sgn (ell + W.spin) * sgn (ell + W.spin)) * (sgn m * sgn m) * mode W ell m by ring,
      sgn_mul_self, sgn_mul_self]
    ring

/-- C09.  Each operation is an involution, on data and frame. -/
theorem conjugate_involutive (ax : Axis) (g g' : Row ℂ) (W : Wave) (h0 : 0 ≤ W.ellMin)
    (hk : W.known = true) (hn : 2 ≤ W.nModes) :
    ∃ V V', conjugate ax g W = .ok V ∧ conjugate ax g' V = .ok V' ∧ Same V' W := by
  obtain ⟨V, hV⟩ := (conjugate_ok_iff ax g W).mpr ⟨hk, hn⟩
  obtain ⟨a1, a2, a3, a4, a5, a6⟩ := conjugate_spec ax g W V h0 hV
  obtain ⟨V', hV'⟩ := (conjugate_ok_iff ax g' V).mpr ⟨a1.trans hk, by rw [nModes_congr a3 a4]; exact hn⟩
  obtain ⟨b1, b2, b3, b4, b5, b6⟩ := conjugate_spec ax g' V V' (by rw [a3]; exact h0) hV'
  refine ⟨V, V', hV, hV', b1.trans a1, b2.trans a2, b3.trans a3, b4.trans a4, ?_, ?_⟩
  · rw [b5, a5, frameConj_involutive]
  · intro ell m h
    rw [b6 ell m ((hasMode_congr a3 a4 ell m).mpr h)]
    exact reflected_reflected ax V W a2 a6 ell m h

/-- What the projections return. -/
theorem symmetricPart_spec (ax : Axis) (g : Row ℂ) (W : Wave) (h0 : 0 ≤ W.ellMin)
    (hk : W.known = true) (hn : 2 ≤ W.nModes) :
    ∃ S, symmetricPart ax g W = .ok S ∧ S.known = W.known ∧ S.spin = W.spin ∧
      S.ellMin = W.ellMin ∧ S.ellMax = W.ellMax ∧ S.frame = frameSym ax W.frame ∧
      ∀ ell m, HasMode W ell m → mode S ell m = (mode W ell m + reflected ax W ell m) / 2 := by
  obtain ⟨V, hV⟩ := (conjugate_ok_iff ax g W).mpr ⟨hk, hn⟩
  obtain ⟨a1, a2, a3, a4, a5, a6⟩ := conjugate_spec ax g W V h0 hV
  refine ⟨{ V with row := fun i => 0.5 * (W.row i + V.row i), frame := frameSym ax W.frame },
    by unfold symmetricPart; rw [hV]; rfl, a1, a2, a3, a4, rfl, ?_⟩
  intro ell m h
  rw [← a6 ell m h]
  unfold mode
  simp only [a3]
  ring

theorem antisymmetricPart_spec (ax : Axis) (g : Row ℂ) (W : Wave) (h0 : 0 ≤ W.ellMin)
    (hk : W.known = true) (hn : 2 ≤ W.nModes) :
    ∃ A, antisymmetricPart ax g W = .ok A ∧ A.known = W.known ∧ A.spin = W.spin ∧
      A.ellMin = W.ellMin ∧ A.ellMax = W.ellMax ∧ A.frame = frameAnti ax W.frame ∧
      ∀ ell m, HasMode W ell m → mode A ell m = (mode W ell m - reflected ax W ell m) / 2 := by
  obtain ⟨V, hV⟩ := (conjugate_ok_iff ax g W).mpr ⟨hk, hn⟩
  obtain ⟨a1, a2, a3, a4, a5, a6⟩ := conjugate_spec ax g W V h0 hV
  refine ⟨{ V with row := fun i => 0.5 * (W.row i - V.row i), frame := frameAnti ax W.frame },
    by unfold antisymmetricPart; rw [hV]; rfl, a1, a2, a3, a4, rfl, ?_⟩
  intro ell m h
  rw [← a6 ell m h]
  unfold mode
  simp only [a3]
  ring

theorem reflected_sum (ax : Axis) (V W : Wave) (hs : V.spin = W.spin) (c : ℂ)
    (hc : c = 1 ∨ c = -1)
    (hV : ∀ ell m, HasMode W ell m → mode V ell m = (mode W ell m + c * reflected ax W ell m) / 2)
    (ell m : Int) (h : HasMode W ell m) :
    reflected ax V ell m = c * mode V ell m := by
  rw [reflected_congr ax V W hs _ hV ell m h, hV ell m h]
  have hcc : conj c = c := by rcases hc with rfl | rfl <;> simp
  have hc2 : c * c = 1 := by rcases hc with rfl | rfl <;> norm_num
  have h2 : conj (2 : ℂ) = 2 := Complex.conj_ofNat 2
  cases ax <;> simp only [reflected, map_mul, map_add, map_div₀, conj_sgn, Complex.conj_conj,
    neg_neg, hcc, h2]
  · linear_combination (c * mode W ell m / 2) * sgn_mul_self m -
      (sgn m * conj (mode W ell m) / 2) * hc2
  · linear_combination -(conj (mode W ell m) / 2) * hc2
  · linear_combination (c * mode W ell m / 2) * sgn_mul_self (ell + W.spin) -
      (sgn (ell + W.spin) * conj (mode W ell (-m)) / 2) * hc2
  · have e : sgn (ell + W.spin + -m) = sgn (ell + W.spin + m) := by
      rw [sgn_add (ell + W.spin) (-m), sgn_neg, ← sgn_add]
    rw [e]
    linear_combination (c * mode W ell m / 2) * sgn_mul_self (ell + W.spin + m) -
      (sgn (ell + W.spin + m) * conj (mode W ell (-m)) / 2) * hc2

/-- C09.  The symmetric and antisymmetric parts exist together, add up to the original data (and
frame), the operation fixes the first and negates the second, and taking the symmetric
(antisymmetric) part again changes nothing. -/
theorem parity_decomposition (ax : Axis) (g : Row ℂ) (W : Wave) (h0 : 0 ≤ W.ellMin)
    (hk : W.known = true) (hn : 2 ≤ W.nModes) :
    ∃ S A S' A' SS AA, symmetricPart ax g W = .ok S ∧ antisymmetricPart ax g W = .ok A ∧
      (∀ ell m, HasMode W ell m → mode S ell m + mode A ell m = mode W ell m) ∧
      conjugate ax g S = .ok S' ∧ Same S' S ∧
      conjugate ax g A = .ok A' ∧ (∀ ell m, HasMode W ell m → mode A' ell m = -mode A ell m) ∧
      symmetricPart ax g S = .ok SS ∧ Same SS S ∧
      antisymmetricPart ax g A = .ok AA ∧ Same AA A := by
  obtain ⟨S, hS, s1, s2, s3, s4, s5, s6⟩ := symmetricPart_spec ax g W h0 hk hn
  obtain ⟨A, hA, a1, a2, a3, a4, a5, a6⟩ := antisymmetricPart_spec ax g W h0 hk hn
  have hnS : 2 ≤ S.nModes := by rw [nModes_congr s3 s4]; exact hn
  have hnA : 2 ≤ A.nModes := by rw [nModes_congr a3 a4]; exact hn
  obtain ⟨S', hS'⟩ := (conjugate_ok_iff ax g S).mpr ⟨s1.trans hk, hnS⟩
  obtain ⟨A', hA'⟩ := (conjugate_ok_iff ax g A).mpr ⟨a1.trans hk, hnA⟩
  obtain ⟨c1, c2, c3, c4, c5, c6⟩ := conjugate_spec ax g S S' (by rw [s3]; exact h0) hS'
  obtain ⟨d1, d2, d3, d4, d5, d6⟩ := conjugate_spec ax g A A' (by rw [a3]; exact h0) hA'
  obtain ⟨SS, hSS, e1, e2, e3, e4, e5, e6⟩ :=
    symmetricPart_spec ax g S (by rw [s3]; exact h0) (s1.trans hk) hnS
  obtain ⟨AA, hAA, f1, f2, f3, f4, f5, f6⟩ :=
    antisymmetricPart_spec ax g A (by rw [a3]; exact h0) (a1.trans hk) hnA
  have rS : ∀ ell m, HasMode W ell m → reflected ax S ell m = mode S ell m := by
    intro ell m h
    have := reflected_sum ax S W s2 1 (Or.inl rfl) (by intro l n hh; rw [s6 l n hh]; ring) ell m h
    rw [this]; ring
  have rA : ∀ ell m, HasMode W ell m → reflected ax A ell m = -mode A ell m := by
    intro ell m h
    have := reflected_sum ax A W a2 (-1) (Or.inr rfl) (by intro l n hh; rw [a6 l n hh]; ring) ell m h
    rw [this]; ring
  refine ⟨S, A, S', A', SS, AA, hS, hA, ?_, hS', ⟨c1, c2, c3, c4, ?_, ?_⟩, hA', ?_, hSS,
    ⟨e1, e2, e3, e4, ?_, ?_⟩, hAA, ⟨f1, f2, f3, f4, ?_, ?_⟩⟩
  · intro ell m h; rw [s6 _ _ h, a6 _ _ h]; ring
  · rw [c5, s5]; cases ax <;> simp [frameConj, frameSym]
  · intro ell m h
    rw [c6 _ _ h]; exact rS _ _ ((hasMode_congr s3 s4 _ _).mp h)
  · intro ell m h
    rw [d6 _ _ ((hasMode_congr a3 a4 _ _).mpr h)]; exact rA _ _ h
  · rw [e5, s5]; cases ax <;> simp [frameSym]
  · intro ell m h
    rw [e6 _ _ h, rS _ _ ((hasMode_congr s3 s4 _ _).mp h)]; ring
  · rw [f5, a5]; cases ax <;> simp [frameAnti]
  · intro ell m h
    rw [f6 _ _ h, rA _ _ ((hasMode_congr a3 a4 _ _).mp h)]; ring

/-- The frame projections also add up to the frame. -/
theorem frame_decomposition (ax : Axis) (q : Quat) :
    (⟨(frameSym ax q).w + (frameAnti ax q).w, (frameSym ax q).x + (frameAnti ax q).x,
      (frameSym ax q).y + (frameAnti ax q).y, (frameSym ax q).z + (frameAnti ax q).z⟩ : Quat) = q := by
  cases ax <;> simp [frameSym, frameAnti]

/-- C09.  Reflecting along z, then y, then x is the inversion. -/
theorem conjugate_xyz (g1 g2 g3 g4 : Row ℂ) (W : Wave) (h0 : 0 ≤ W.ellMin)
    (hk : W.known = true) (hn : 2 ≤ W.nModes) :
    ∃ A B C D, conjugate .z g1 W = .ok A ∧ conjugate .y g2 A = .ok B ∧ conjugate .x g3 B = .ok C ∧
      conjugate .all g4 W = .ok D ∧ Same C D := by
  obtain ⟨A, hA⟩ := (conjugate_ok_iff .z g1 W).mpr ⟨hk, hn⟩
  obtain ⟨a1, a2, a3, a4, a5, a6⟩ := conjugate_spec _ _ _ _ h0 hA
  obtain ⟨B, hB⟩ := (conjugate_ok_iff .y g2 A).mpr ⟨a1.trans hk, by rw [nModes_congr a3 a4]; exact hn⟩
  obtain ⟨b1, b2, b3, b4, b5, b6⟩ := conjugate_spec _ _ _ _ (by rw [a3]; exact h0) hB
  obtain ⟨C, hC⟩ := (conjugate_ok_iff .x g3 B).mpr
    ⟨b1.trans (a1.trans hk), by rw [nModes_congr b3 b4, nModes_congr a3 a4]; exact hn⟩
  obtain ⟨c1, c2, c3, c4, c5, c6⟩ := conjugate_spec _ _ _ _ (by rw [b3, a3]; exact h0) hC
  obtain ⟨D, hD⟩ := (conjugate_ok_iff .all g4 W).mpr ⟨hk, hn⟩
  obtain ⟨d1, d2, d3, d4, d5, d6⟩ := conjugate_spec _ _ _ _ h0 hD
  refine ⟨A, B, C, D, hA, hB, hC, hD, ?_, ?_, ?_, ?_, ?_, ?_⟩
  · rw [c1, b1, a1, d1]
  · rw [c2, b2, a2, d2]
  · rw [c3, b3, a3, d3]
  · rw [c4, b4, a4, d4]
  · rw [c5, b5, a5, d5]; simp [frameConj]
  · intro ell m h
    have hW := (hasMode_congr d3 d4 ell m).mp h
    have hA' := (hasMode_congr a3 a4 ell m).mpr hW
    have hB' := (hasMode_congr b3 b4 ell m).mpr hA'
    rw [d6 _ _ hW, c6 _ _ hB']
    simp only [reflected]
    rw [b6 _ _ hA']
    simp only [reflected]
    rw [a6 _ _ hW]
    simp only [reflected, map_mul, conj_sgn, Complex.conj_conj]
    rw [sgn_add (ell + W.spin) m]; ring

/-- C09, limit of the claim: a waveform with the single mode (0, 0) is refused. -/
theorem single_mode_refused (ax : Axis) (g row : Row ℂ) (q : Quat) (s : Int) :
    conjugate ax g ⟨true, s, 0, 0, row, q⟩ = .error .valueError := by
  apply conjugate_refuses
  right
  show (LMRange 0 0).length < 2; decide

-- A waveform with 2 ≤ ell ≤ 8 meets the hypotheses.
example (row : Row ℂ) (q : Quat) :
    0 ≤ (⟨true, -2, 2, 8, row, q⟩ : Wave).ellMin ∧ (⟨true, -2, 2, 8, row, q⟩ : Wave).known = true ∧
      2 ≤ (⟨true, -2, 2, 8, row, q⟩ : Wave).nModes ∧ HasMode ⟨true, -2, 2, 8, row, q⟩ 3 (-1) := by
  refine ⟨by simp, rfl, ?_, by unfold HasMode; simp⟩
  show 2 ≤ (LMRange 2 8).length; decide

end Verif.Props.Parity
