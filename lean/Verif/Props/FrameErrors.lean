import Verif.Spec.FrameErrors
import Verif.Props.AbdFrame
import Verif.Props.SuperrestLoop
import Verif.Lemmas.Modes
import Verif.Props.GridModes

/-!
# C103: the errors that `map_to_superrest_frame` reports
-/

namespace Verif.Props.FrameErrors
open Verif Verif.Charges Verif.Modes Verif.FrameErrors Verif.SuperrestLoop Verif.Spec.FrameErrors Verif.Spec.AbdFrame

variable {ext : Ext} {a : Data}

/-! ## Charges are vectors -/

theorem vector_ok (f : Modes) : ∃ x0 x1 x2 x3, chargeVectorFromAspect (view1 f) = .ok [x0, x1, x2, x3] := ⟨_, _, _, _, rfl⟩

theorem momentum_ok (d : Abd) : ∃ E p1 p2 p3, bondiFourMomentum ext.mul ext.dflt d = .ok [E, p1, p2, p3] := vector_ok _

theorem com_ok (d : Abd) : ∃ x y z, bondiCoMCharge ext.mul d = .ok [x, y, z] := ⟨_, _, _, rfl⟩
theorem boost_ok (d : Abd) : ∃ x y z, bondiBoostCharge ext.mul d = .ok [x, y, z] := ⟨_, _, _, rfl⟩
theorem angular_ok (d : Abd) : ∃ x y z, bondiAngularMomentum ext.mul d = .ok [x, y, z] := ⟨_, _, _, rfl⟩

theorem vec_eq (x y z : ℝ) : vec [x, y, z] = ![x, y, z] := by
  funext i
  fin_cases i <;> rfl

theorem norm3_zero (v : Fin 3 → ℝ) : norm3 v = 0 ↔ v = 0 := by
  unfold norm3
  rw [Real.sqrt_eq_zero (by positivity)]
  constructor
  · intro h
    have h0 : v 0 = 0 := by nlinarith [sq_nonneg (v 0), sq_nonneg (v 1), sq_nonneg (v 2)]
    have h1 : v 1 = 0 := by nlinarith [sq_nonneg (v 0), sq_nonneg (v 1), sq_nonneg (v 2)]
    have h2 : v 2 = 0 := by nlinarith [sq_nonneg (v 0), sq_nonneg (v 1), sq_nonneg (v 2)]
    funext i
    fin_cases i <;> assumption
  · rintro rfl
    simp

/-- The value for the center of mass at one time. -/
theorem place_eq (d : Abd) (E p1 p2 p3 : ℝ) (hP : bondiFourMomentum ext.mul ext.dflt d = .ok [E, p1, p2, p3]) (hE : 0 < E) :
    ∃ x, place ext d = .ok (some x) ∧ 0 ≤ x ∧ (x = 0 ↔ bondiCoMCharge ext.mul d = .ok [0, 0, 0]) := by
  obtain ⟨x, y, z, hG⟩ := com_ok (ext := ext) d
  refine ⟨norm3 fun i => vec [x, y, z] i / E, ?_, Real.sqrt_nonneg _, ?_⟩
  · unfold place
    rw [hG, hP, ok_bind, ok_bind]
    show pure (if E = 0 then none else some _) = _
    rw [if_neg hE.ne']
    rfl
  · rw [norm3_zero, hG, vec_eq]
    constructor
    · intro h
      have h0 := congrFun h 0
      have h1 := congrFun h 1
      have h2 := congrFun h 2
      simp only [Matrix.cons_val, Pi.zero_apply, div_eq_zero_iff, hE.ne', or_false] at h0 h1 h2
      rw [h0, h1, h2]
    · intro h
      have h := Except.ok.inj h
      simp only [List.cons.injEq, and_true] at h
      obtain ⟨rfl, rfl, rfl⟩ := h
      funext i
      fin_cases i <;> simp

theorem spin_eq (d : Abd) (E p1 p2 p3 : ℝ) (hP : bondiFourMomentum ext.mul ext.dflt d = .ok [E, p1, p2, p3]) (hE : 0 < E) (hp : p1 ^ 2 + p2 ^ 2 + p3 ^ 2 < E ^ 2) :
    ∃ s, spin ext d = .ok (some s) ∧ ∀ s', HasSpin ext d s' ↔ s' = s := by
  obtain ⟨N1, N2, N3, hN⟩ := boost_ok (ext := ext) d
  obtain ⟨J1, J2, J3, hJ⟩ := angular_ok (ext := ext) d
  refine ⟨dimensionlessSpin ![N1, N2, N3] ![J1, J2, J3] E ![p1, p2, p3], ?_, fun s' => ?_⟩
  · unfold spin
    rw [hN, hJ, hP, ok_bind, ok_bind, ok_bind]
    show pure (if E = 0 ∨ E ^ 2 ≤ ∑ i, vec [p1, p2, p3] i ^ 2 then none else some (dimensionlessSpin (vec [N1, N2, N3]) (vec [J1, J2, J3]) E (vec [p1, p2, p3]))) = _
    rw [vec_eq, vec_eq, vec_eq, if_neg]
    · rfl
    · rw [Fin.sum_univ_three]
      simp only [Matrix.cons_val]
      rintro (h | h)
      · exact hE.ne' h
      · linarith
  · constructor
    · rintro ⟨a1, a2, a3, b1, b2, b3, e, c1, c2, c3, g1, g2, g3, rfl⟩
      rw [hN] at g1
      rw [hJ] at g2
      rw [hP] at g3
      simp only [Except.ok.injEq, List.cons.injEq, and_true] at g1 g2 g3
      obtain ⟨rfl, rfl, rfl⟩ := g1
      obtain ⟨rfl, rfl, rfl⟩ := g2
      obtain ⟨rfl, rfl, rfl, rfl⟩ := g3
      rfl
    · rintro rfl
      exact ⟨_, _, _, _, _, _, _, _, _, _, hN, hJ, hP, rfl⟩

/-- The tilt of a spin that does not vanish. -/
theorem tilt_eq (s : Fin 3 → ℝ) (hs : s ≠ 0) : ∃ x, tilt (some s) = some x ∧ 0 ≤ x ∧ (x = 0 ↔ s 0 = 0 ∧ s 1 = 0 ∧ 0 < s 2) := by
  have hn : norm3 s ≠ 0 := fun h => hs ((norm3_zero s).1 h)
  have hpos : 0 < norm3 s := lt_of_le_of_ne (Real.sqrt_nonneg _) hn.symm
  refine ⟨_, if_neg hn, Real.sqrt_nonneg _, ?_⟩
  rw [norm3_zero]
  constructor
  · intro h
    have h0 := congrFun h 0
    have h1 := congrFun h 1
    have h2 := congrFun h 2
    simp only [Pi.zero_apply, show ((0 : Fin 3) = 2) = False by simp, show ((1 : Fin 3) = 2) = False by simp, if_true, if_false, sub_zero, div_eq_zero_iff, hn, or_false] at h0 h1 h2
    refine ⟨h0, h1, ?_⟩
    have : s 2 = norm3 s := by
      field_simp at h2
      linarith
    rw [this]
    exact hpos
  · rintro ⟨h0, h1, h2⟩
    have e : norm3 s = s 2 := by
      unfold norm3
      rw [h0, h1]
      simp only [ne_eq, OfNat.ofNat_ne_zero, not_false_eq_true, zero_pow, zero_add]
      exact Real.sqrt_sq h2.le
    funext i
    rw [e]
    fin_cases i
    · simp [h0]
    · simp [h1]
    · simp [h2.ne']

/-! ## Averages -/

theorem mapM_all {α β : Type} (f : α → Py β) (R : α → β → Prop) (l : List α) (h : ∀ d ∈ l, ∃ x, f d = .ok x ∧ R d x) : ∃ ys, l.mapM f = .ok ys ∧ List.Forall₂ R l ys := by
  induction l with
  | nil => exact ⟨[], rfl, List.Forall₂.nil⟩
  | cons d l ih =>
    obtain ⟨x, hx, hR⟩ := h d (by simp)
    obtain ⟨ys, hy, hF⟩ := ih fun e he => h e (by simp [he])
    refine ⟨x :: ys, ?_, List.Forall₂.cons hR hF⟩
    rw [List.mapM_cons, hx, ok_bind, hy]
    rfl

theorem forall_mem {α β : Type} {R : α → β → Prop} {l : List α} {ys : List β} (h : List.Forall₂ R l ys) : (∀ y ∈ ys, ∃ d ∈ l, R d y) ∧ ∀ d ∈ l, ∃ y ∈ ys, R d y := by
  induction h with
  | nil => simp
  | cons h _ ih =>
    constructor
    · intro y hy
      rcases List.mem_cons.1 hy with rfl | hy
      · exact ⟨_, by simp, h⟩
      · obtain ⟨d, hd, hr⟩ := ih.1 y hy
        exact ⟨d, by simp [hd], hr⟩
    · intro d hd
      rcases List.mem_cons.1 hd with rfl | hd
      · exact ⟨_, by simp, h⟩
      · obtain ⟨y, hy, hr⟩ := ih.2 d hd
        exact ⟨y, by simp [hy], hr⟩

theorem length_times (hp : Spec.FrameErrors.Proper ext a) : ∃ x y, (a.at'.map (·.t)).headD 0 = x ∧ (a.at'.map (·.t)).getLastD 0 = y ∧ x < y ∧ a.at'.map (·.t) ≠ [] := by
  obtain ⟨t, ht⟩ : ∃ t, t = a.at'.map (·.t) := ⟨_, rfl⟩
  have h2 : 2 ≤ t.length := by rw [ht, List.length_map]; exact hp.two
  have hi := hp.inc
  rw [← ht] at hi ⊢
  rcases t with _ | ⟨x, t⟩
  · simp at h2
  rcases t with _ | ⟨y, t⟩
  · simp at h2
  refine ⟨x, _, rfl, rfl, ?_, by simp⟩
  have hm : (x :: y :: t).getLastD 0 ∈ y :: t := by
    rw [List.getLastD_eq_getLast?]
    have : (x :: y :: t).getLast? = some ((y :: t).getLast (by simp)) := by
      rw [List.getLast?_cons_cons, List.getLast?_eq_some_getLast]
    rw [this]
    exact List.getLast_mem _
  exact (List.pairwise_cons.1 hi).1 _ hm

/-- The average of values that are numbers. -/
theorem average_fin (hp : Spec.FrameErrors.Proper ext a) (hI : PositiveIntegral ext.integrate) (y : List (Option ℝ)) (hl : y.length = a.at'.length) (hy : ∀ v ∈ y, ∃ x, v = some x ∧ 0 ≤ x) :
    ∃ r, average ext y (a.at'.map (·.t)) = .ok (.fin r) ∧ 0 ≤ r ∧ (r = 0 ↔ ∀ v ∈ y, v = some 0) := by
  obtain ⟨t0, t1, e0, e1, hlt, hne⟩ := length_times hp
  have hI' := hI (y.map (·.getD 0)) (a.at'.map (·.t)) (by simp [hl]) hp.inc (by simpa using hp.two) (by
    intro x hx
    obtain ⟨v, hv, rfl⟩ := List.mem_map.1 hx
    obtain ⟨x, rfl, h⟩ := hy v hv
    exact h)
  have hd : 0 < t1 - t0 := by linarith
  refine ⟨_, ?_, div_nonneg hI'.1 hd.le, ?_⟩
  · unfold average
    rw [if_neg hne, e0, e1, if_neg]
    rintro (h | h)
    · obtain ⟨x, hx, -⟩ := hy _ h
      cases hx
    · exact hlt.ne' h
  · rw [div_eq_zero_iff, or_iff_left hd.ne', hI'.2]
    constructor
    · intro h v hv
      obtain ⟨x, rfl, -⟩ := hy v hv
      have := h x (List.mem_map.2 ⟨_, hv, rfl⟩)
      rw [this]
    · intro h x hx
      obtain ⟨v, hv, rfl⟩ := List.mem_map.1 hx
      rw [h v hv]
      rfl

theorem average_nan (hp : Spec.FrameErrors.Proper ext a) (y : List (Option ℝ)) (hy : none ∈ y) : average ext y (a.at'.map (·.t)) = .ok .nan := by
  obtain ⟨t0, t1, e0, e1, hlt, hne⟩ := length_times hp
  unfold average
  rw [if_neg hne, if_pos (.inl hy)]

/-! ## The supermomentum -/

theorem drop4 {L : Int} (hL : 1 ≤ L) : (LMRange 0 L).drop 4 = LMRange 2 L := by
  rw [Verif.Props.GridModes.LMRange_append (a := 0) (b := 1) (c := L) (by omega) (by omega), List.drop_append_of_le_length (by decide), List.drop_of_length_le (by decide)]
  rfl

theorem norm4_zero {L : Int} (hL : 1 ≤ L) (f : Modes) : 0 ≤ norm4 L f ∧ (norm4 L f = 0 ↔ ∀ ell m, 2 ≤ ell → ell ≤ L → -ell ≤ m → m ≤ ell → f ell m = 0) := by
  unfold norm4
  rw [drop4 hL]
  have hn : ∀ x ∈ ((LMRange 2 L).map fun p => ‖f p.1 p.2‖ ^ 2), 0 ≤ x := by
    intro x hx
    obtain ⟨p, -, rfl⟩ := List.mem_map.1 hx
    positivity
  refine ⟨Real.sqrt_nonneg _, ?_⟩
  rw [Real.sqrt_eq_zero (List.sum_nonneg hn)]
  constructor
  · intro h ell m h1 h2 h3 h4
    have := List.all_zero_of_le_zero_le_of_sum_eq_zero hn h (x := ‖f ell m‖ ^ 2) (List.mem_map.2 ⟨(ell, m), mem_LMRange.2 ⟨⟨h1, h2⟩, h3, h4⟩, rfl⟩)
    simpa using this
  · intro h
    apply List.sum_eq_zero
    intro x hx
    obtain ⟨⟨ell, m⟩, hm, rfl⟩ := List.mem_map.1 hx
    obtain ⟨⟨h1, h2⟩, h3, h4⟩ := mem_LMRange.1 hm
    simp [h ell m h1 h2 h3 h4]

theorem moreschi_ok (prod : Modes) (d : Abd) : ∃ f, supermomentum prod d "moreschi" false = .ok f := by
  unfold supermomentum supermomentumDensity
  rw [if_neg (by decide), if_pos (by decide)]
  exact ⟨_, rfl⟩

theorem nearest_unique {t : List ℝ} {x : ℝ} {i j : Nat} (hi : Nearest t x i) (hj : Nearest t x j) : i = j := by
  obtain ⟨u, u1, u2, u3⟩ := hi
  obtain ⟨v, v1, v2, v3⟩ := hj
  rcases lt_trichotomy i j with h | h | h
  · exact absurd (v3 i u h u1) (not_lt.2 (u2 v (List.mem_of_getElem? v1)))
  · exact h
  · exact absurd (u3 j v h v1) (not_lt.2 (v2 u (List.mem_of_getElem? u1)))

theorem super_spec (hp : Spec.FrameErrors.Proper ext a) (target : Option Target) (hT : ∀ T, target = some T → T.t ≠ []) :
    ∃ z, superError ext a target = .ok (.fin z) ∧ 0 ≤ z ∧ (z = 0 ↔ Nice ext target a) := by
  obtain ⟨-, -, -, -, -, hne⟩ := length_times hp
  obtain ⟨k, ek, nk⟩ := Verif.Props.AbdFrame.nearest_spec (a.at'.map (·.t)) 0 hne
  have hk : k < a.at'.length := by
    obtain ⟨u, hu, -⟩ := nk
    obtain ⟨h, -⟩ := List.getElem?_eq_some_iff.1 hu
    simpa using h
  obtain ⟨f, hf⟩ := moreschi_ok (ext.prod a.at'[k]) a.at'[k]
  have hs : superAt ext a = .ok f := by
    unfold superAt
    rw [ek, ok_bind, List.getElem?_eq_getElem hk]
    exact hf
  have uniq : ∀ k' d' f', Nearest (a.at'.map (·.t)) 0 k' → a.at'[k']? = some d' → supermomentum (ext.prod d') d' "moreschi" false = .ok f' → f' = f := by
    intro k' d' f' n' d1 f1
    obtain rfl := nearest_unique n' nk
    rw [List.getElem?_eq_getElem hk] at d1
    obtain rfl := Option.some.inj d1
    rw [hf] at f1
    exact (Except.ok.inj f1).symm
  cases target with
  | none =>
    refine ⟨norm4 a.ellMax f, ?_, (norm4_zero hp.ell f).1, ?_⟩
    · unfold superError
      rw [hs, ok_bind]
      rfl
    · rw [(norm4_zero hp.ell f).2]
      constructor
      · intro h
        exact ⟨k, _, f, nk, List.getElem?_eq_getElem hk, hf, h⟩
      · rintro ⟨k', d', f', n', d1, f1, h⟩
        rw [← uniq k' d' f' n' d1 f1]
        exact h
  | some T =>
    obtain ⟨j, ej, nj⟩ := Verif.Props.AbdFrame.nearest_spec T.t 0 (hT T rfl)
    refine ⟨norm4 a.ellMax fun ell m => f ell m - T.modes j ell m, ?_, (norm4_zero hp.ell _).1, ?_⟩
    · unfold superError
      rw [hs, ok_bind]
      simp only [ej, ok_bind]
      rfl
    · rw [(norm4_zero hp.ell _).2]
      constructor
      · intro h
        exact ⟨k, _, f, nk, List.getElem?_eq_getElem hk, hf, j, nj, fun ell m h1 h2 h3 h4 => sub_eq_zero.1 (h ell m h1 h2 h3 h4)⟩
      · rintro ⟨k', d', f', n', d1, f1, j', nj', h⟩ ell m h1 h2 h3 h4
        obtain rfl := nearest_unique nj' nj
        rw [← uniq k' d' f' n' d1 f1]
        exact sub_eq_zero.2 (h ell m h1 h2 h3 h4)

/-! ## The errors -/

/-- **C103**: the three errors are not negative. The first is 0 only if the charge of the center of mass is 0 at all times, the third only if the supermomentum nearest to the time 0 has no modes with `ell >= 2` (or those of the target).
The second is 0 only if the spin points to the positive `z` axis at all times; but it is nan if the spin vanishes at some time. -/
theorem errors_spec (hp : Spec.FrameErrors.Proper ext a) (hI : PositiveIntegral ext.integrate) (target : Option Target) (hT : ∀ T, target = some T → T.t ≠ []) :
    ∃ x y z, errors ext target a = .ok (.fin x, y, .fin z) ∧ 0 ≤ x ∧ 0 ≤ z ∧ (x = 0 ↔ Centered ext a) ∧ (z = 0 ↔ Nice ext target a) ∧
      ((SpinVanishes ext a ∧ y = .nan) ∨ (¬ SpinVanishes ext a ∧ ∃ r, y = .fin r ∧ 0 ≤ r ∧ (r = 0 ↔ Upright ext a))) := by
  obtain ⟨G, hG, fG⟩ := mapM_all (place ext) (fun d v => ∃ x, v = some x ∧ 0 ≤ x ∧ (x = 0 ↔ bondiCoMCharge ext.mul d = .ok [0, 0, 0])) a.at' (by
    intro d hd
    obtain ⟨E, p1, p2, p3, hP, hE, -⟩ := hp.massive d hd
    obtain ⟨x, h1, h2, h3⟩ := place_eq d E p1 p2 p3 hP hE
    exact ⟨_, h1, x, rfl, h2, h3⟩)
  obtain ⟨S, hS, fS⟩ := mapM_all (spin ext) (fun d v => ∃ s, v = some s ∧ ∀ s', HasSpin ext d s' ↔ s' = s) a.at' (by
    intro d hd
    obtain ⟨E, p1, p2, p3, hP, hE, hlt⟩ := hp.massive d hd
    obtain ⟨s, h1, h2⟩ := spin_eq d E p1 p2 p3 hP hE hlt
    exact ⟨_, h1, s, rfl, h2⟩)
  have mG := forall_mem fG
  have mS := forall_mem fS
  obtain ⟨x, ex, x0, xz⟩ := average_fin hp hI G fG.length_eq.symm (by
    intro v hv
    obtain ⟨d, -, x, h1, h2, -⟩ := mG.1 v hv
    exact ⟨x, h1, h2⟩)
  obtain ⟨z, ez, z0, zz⟩ := super_spec hp target hT
  have hx : x = 0 ↔ Centered ext a := by
    rw [xz]
    constructor
    · intro h d hd
      obtain ⟨v, hv, x, rfl, -, h3⟩ := mG.2 d hd
      exact h3.1 (Option.some.inj (h _ hv))
    · intro h v hv
      obtain ⟨d, hd, x, rfl, -, h3⟩ := mG.1 v hv
      rw [h3.2 (h d hd)]
  have total : ∀ y, average ext (S.map tilt) (a.at'.map (·.t)) = .ok y → errors ext target a = .ok (.fin x, y, .fin z) := by
    intro y hy
    unfold errors
    simp only [hG, hS, ok_bind, ex, hy, ez]
    rfl
  by_cases hv : SpinVanishes ext a
  · refine ⟨x, .nan, z, total _ (average_nan hp _ ?_), x0, z0, hx, zz, .inl ⟨hv, rfl⟩⟩
    obtain ⟨d, hd, h0⟩ := hv
    obtain ⟨v, hv, s, rfl, hs⟩ := mS.2 d hd
    refine List.mem_map.2 ⟨_, hv, ?_⟩
    rw [← (hs 0).1 h0]
    exact if_pos ((norm3_zero 0).2 rfl)
  · have hne : ∀ v ∈ S, ∃ d ∈ a.at', ∃ s y, v = some s ∧ (∀ s', HasSpin ext d s' ↔ s' = s) ∧ tilt v = some y ∧ 0 ≤ y ∧ (y = 0 ↔ s 0 = 0 ∧ s 1 = 0 ∧ 0 < s 2) := by
      intro v hm
      obtain ⟨d, hd, s, rfl, hs⟩ := mS.1 v hm
      have : s ≠ 0 := fun h => hv ⟨d, hd, (hs 0).2 h.symm⟩
      obtain ⟨y, y1, y2, y3⟩ := tilt_eq s this
      exact ⟨d, hd, s, y, rfl, hs, y1, y2, y3⟩
    obtain ⟨r, er, r0, rz⟩ := average_fin hp hI (S.map tilt) (by rw [List.length_map]; exact fS.length_eq.symm) (by
      intro v hv
      obtain ⟨u, hu, rfl⟩ := List.mem_map.1 hv
      obtain ⟨-, -, -, y, -, -, y1, y2, -⟩ := hne u hu
      exact ⟨y, y1, y2⟩)
    refine ⟨x, .fin r, z, total _ er, x0, z0, hx, zz, .inr ⟨hv, r, rfl, r0, ?_⟩⟩
    rw [rz]
    constructor
    · intro h d hd
      obtain ⟨v, hm, s, rfl, hs⟩ := mS.2 d hd
      have hs0 : s ≠ 0 := fun h => hv ⟨d, hd, (hs 0).2 h.symm⟩
      obtain ⟨y, y1, -, y3⟩ := tilt_eq s hs0
      have := h _ (List.mem_map.2 ⟨_, hm, rfl⟩)
      rw [y1] at this
      exact ⟨s, (hs s).2 rfl, y3.1 (Option.some.inj this)⟩
    · intro h v hm
      obtain ⟨u, hu, rfl⟩ := List.mem_map.1 hm
      obtain ⟨d, hd, s, y, rfl, hs, y1, -, y3⟩ := hne u hu
      obtain ⟨s', h1, h2⟩ := h d hd
      rw [(hs s').1 h1] at h2
      rw [y1, y3.2 h2]

/-- **C103** (refutation): for data without spin, in whatever frame, `map_to_superrest_frame` never returns, with any order, tolerances and number of iterations. (The type of `o` says that transformations of data without spin have none.) -/
theorem spinless_never {B : Type} (hI : PositiveIntegral ext.integrate) (target : Option Target) (hT : ∀ T, target = some T → T.t ≠ [])
    (o : Outer { a : Data // Spec.FrameErrors.Proper ext a ∧ SpinVanishes ext a } B) (ho : ∀ a, o.errors a = errors ext target a.1) (order : List Step) (hk : Spec.SuperrestLoop.Known false order)
    (N : Int) (t1 t2 t3 : Err) (abd interp : { a : Data // Spec.FrameErrors.Proper ext a ∧ SpinVanishes ext a }) (b0 back : B) :
    ∃ e, superrest o false order N (t1, t2, t3) abd interp b0 back = .error e := by
  rcases h0 : o.transform interp b0 with e | a0
  · by_cases hN : N ≤ 0
    · exact ⟨_, Verif.Props.SuperrestLoop.superrest_no_iterations o false order N hN _ abd interp b0 back⟩
    · obtain ⟨n, hn⟩ : ∃ n, N.toNat = n + 1 := ⟨N.toNat - 1, by omega⟩
      refine ⟨e, ?_⟩
      unfold superrest
      rw [hn]
      have e0 : outer o false order (n + 1) (t1, t2, t3) interp (n + 1) { itr := 0, v := { new := none, bms := b0, abd := interp, rel := .start }, rels := [.start], best := none, bestRel := .start } = .error e := by
        refine (if_pos ⟨Nat.succ_pos _, fun h => h⟩).trans ?_
        unfold firstPass
        rw [if_pos rfl, h0]
        rfl
      rw [e0]
      rfl
  · refine Verif.Props.SuperrestLoop.superrest_nan o false order hk (by simp) N t1 t2 t3 abd interp b0 back a0 h0 fun a x y z h => ?_
    rw [ho] at h
    obtain ⟨x', y', z', h', -, -, -, -, h5⟩ := errors_spec a.2.1 hI target hT
    rw [h] at h'
    have h' := Except.ok.inj h'
    rcases h5 with ⟨-, rfl⟩ | ⟨hn, -⟩
    · exact .inr (.inl (congrArg (fun p => p.2.1) h'))
    · exact absurd a.2.2 hn

/-! ## The hypotheses are met -/

/-- A black hole at rest with angular momentum in proportion to `c`, at the time `t`. -/
noncomputable def hole (c : ℝ) (t : ℝ) : Abd :=
  { t := t, psi1 := fun ell m => if ell = 1 ∧ m = 0 then -(Complex.I * c) else 0, psi2 := fun ell m => if ell = 0 ∧ m = 0 then -1 else 0, sigma := fun _ _ => 0, sigmaDot := fun _ _ => 0 }

noncomputable def holeExt : Ext := { mul := fun _ _ _ _ => fun _ _ => 0, dflt := 1, prod := fun _ => fun _ _ => 0, integrate := Verif.Props.AbdFrame.trap }

noncomputable def holes (c : ℝ) : Data := { at' := [hole c 0, hole c 1], ellMax := 8 }

theorem hole_momentum (c t : ℝ) : bondiFourMomentum holeExt.mul holeExt.dflt (hole c t) = .ok [1 / √(4 * Real.pi), 0, 0, 0] := by
  simp [bondiFourMomentum, chargeVectorFromAspect, view1, massAspect, hole, holeExt, truncateEll, re, bar, pyGet, pure_eq_ok, ok_bind]

theorem hole_com (c t : ℝ) : bondiCoMCharge holeExt.mul (hole c t) = .ok [0, 0, 0] := by
  simp [bondiCoMCharge, chargeVectorFromAspect, view1, hole, holeExt, truncateEll, ethGHP, pyGet, pure_eq_ok, ok_bind]

theorem hole_boost (c t : ℝ) : bondiBoostCharge holeExt.mul (hole c t) = .ok [0, 0, 0] := by
  simp [bondiBoostCharge, chargeVectorFromAspect, view1, hole, holeExt, truncateEll, ethGHP, re, bar, pyGet, pure_eq_ok, ok_bind]

theorem hole_angular (c t : ℝ) : bondiAngularMomentum holeExt.mul (hole c t) = .ok [0, 0, c / √3 / √(4 * Real.pi)] := by
  simp [bondiAngularMomentum, chargeVectorFromAspect, view1, hole, holeExt, truncateEll, ethGHP, pyGet, pure_eq_ok, ok_bind]

theorem holes_proper (c : ℝ) : Spec.FrameErrors.Proper holeExt (holes c) := by
  have h : 0 < 1 / √(4 * Real.pi) := by positivity
  refine ⟨le_refl 2, by simp [holes, hole], ?_, by simp [holes]⟩
  intro d hd
  have : ∃ t, d = hole c t := by
    simp only [holes, List.mem_cons, List.not_mem_nil, or_false] at hd
    rcases hd with rfl | rfl
    · exact ⟨_, rfl⟩
    · exact ⟨_, rfl⟩
  obtain ⟨t, rfl⟩ := this
  exact ⟨_, _, _, _, hole_momentum c t, h, by simpa using pow_pos h 2⟩

theorem hole_spin (c t : ℝ) : HasSpin holeExt (hole c t) ![0, 0, c / √3 / √(4 * Real.pi) / (1 / √(4 * Real.pi)) ^ 2] := by
  refine ⟨_, _, _, _, _, _, _, _, _, _, hole_boost c t, hole_angular c t, hole_momentum c t, ?_⟩
  have h0 : (![0, 0, 0] : Fin 3 → ℝ) = 0 := by
    funext i
    fin_cases i <;> rfl
  rw [h0]
  generalize c / √3 / √(4 * Real.pi) = J
  generalize 1 / √(4 * Real.pi) = E
  funext i
  fin_cases i <;> simp [dimensionlessSpin]

/-- Without angular momentum the hypotheses of `spinless_never` are met. -/
example : Spec.FrameErrors.Proper holeExt (holes 0) ∧ SpinVanishes holeExt (holes 0) := by
  refine ⟨holes_proper 0, hole 0 0, by simp [holes], ?_⟩
  have := hole_spin 0 0
  convert this using 1
  funext i
  fin_cases i <;> simp

/-- With angular momentum along `z` all three errors are 0. -/
example : errors holeExt none (holes 1) = .ok (.fin 0, .fin 0, .fin 0) := by
  have hI : PositiveIntegral holeExt.integrate := fun y t hl hp h2 hn => ⟨Verif.Props.AbdFrame.trap_nonneg y t hl hp hn, Verif.Props.AbdFrame.trap_zero y t hl hp h2 hn⟩
  have hd : ∀ d ∈ (holes 1).at', ∃ t, d = hole 1 t := by
    intro d hd
    simp only [holes, List.mem_cons, List.not_mem_nil, or_false] at hd
    rcases hd with rfl | rfl
    · exact ⟨_, rfl⟩
    · exact ⟨_, rfl⟩
  have pos : 0 < 1 / √3 / √(4 * Real.pi) / (1 / √(4 * Real.pi)) ^ 2 := by positivity
  have up : Upright holeExt (holes 1) := by
    intro d h
    obtain ⟨t, rfl⟩ := hd d h
    exact ⟨_, hole_spin 1 t, rfl, rfl, pos⟩
  have ce : Centered holeExt (holes 1) := by
    intro d h
    obtain ⟨t, rfl⟩ := hd d h
    exact hole_com 1 t
  have ni : Nice holeExt none (holes 1) := by
    refine ⟨0, hole 1 0, _, ⟨0, rfl, ?_, fun j v hj => absurd hj (Nat.not_lt_zero _)⟩, rfl, rfl, ?_⟩
    · intro v _
      rw [sub_zero, abs_zero]
      exact abs_nonneg _
    · intro ell m h1 _ _ _
      simp [hole, holeExt, ethGHP, bar]
      omega
  obtain ⟨x, y, z, he, -, -, hx, hz, hy⟩ := errors_spec (holes_proper 1) hI none (by simp)
  rcases hy with ⟨⟨d, h, hs⟩, -⟩ | ⟨-, r, rfl, -, hr⟩
  · exfalso
    obtain ⟨t, rfl⟩ := hd d h
    obtain ⟨E, p1, p2, p3, hP, hE, hlt⟩ := (holes_proper 1).massive _ h
    obtain ⟨s, -, u⟩ := spin_eq _ E p1 p2 p3 hP hE hlt
    have := congrFun (((u _).1 hs).trans ((u _).1 (hole_spin 1 t)).symm) 2
    exact pos.ne this
  · rw [he, hx.2 ce, hz.2 ni, hr.2 up]

end Verif.Props.FrameErrors
