import Verif.Lemmas.AngMomCov
import Verif.Props.ModeCalc

/-!
# C65: angular-momentum sums, the angular velocity and the angular momentum flux of a rotated waveform
-/

namespace Verif.Props.AngMomCov
open Verif.Modes Verif.ModeCalc Verif.Flux Verif.Spec.AngMom Verif.Spec.Rotation Verif.AngMomCov Verif.Props.ModeCalc Verif.Slicing Verif.Spec.Slicing Verif.Props.FluxCovariance ComplexConjugate
open Verif.AbdTransform (rotateVec)

/-- `d'` are the data `d` at one time with respect to the basis rotated by `Q`. -/
def RowRotated (a b : Int) (Q : Quaternion ℝ) (d d' : Row ℂ) : Prop :=
  ∀ ell m, a ≤ ell → ell ≤ b → -ell ≤ m → m ≤ ell → d' (lmIndex ell m a) = rot ell Q (fun n => d (lmIndex ell n a)) m

/-- C65: this is what `rotate_decomposition_basis` leaves in every row. -/
theorem rotate_rows (W : Verif.Rotation.Wave) (h0 : 0 ≤ W.ellMin) (Q : Quaternion ℝ) (D tmp : Row ℂ) (k : Nat) (d : Row ℂ) (hk : W.data[k]? = some d) :
    ∃ d', (Verif.Rotation.rotate W (.quat Q) D tmp).1.data[k]? = some d' ∧ RowRotated W.ellMin W.ellMax Q d d' := by
  have hr := (Props.Rotation.constant_rotation W h0 Q D tmp).2
  obtain ⟨hk1, hk2⟩ := List.getElem?_eq_some_iff.1 hk
  have hk' : k < (Verif.Rotation.rotate W (.quat Q) D tmp).1.data.length := by rw [hr.2.2.1]; exact hk1
  refine ⟨_, List.getElem?_eq_getElem hk', fun ell m h1 h2 h3 h4 => ?_⟩
  have h := hr.2.2.2 k ell m ⟨hk1, h1, h2, h3, h4⟩
  unfold mode at h
  rw [List.getElem?_eq_getElem hk', hk, hr.1] at h
  exact h

theorem vL_congr (v : Fin 3 → ℝ) (g g' : Fn) (ell : Int) (h : ∀ m, -ell ≤ m ∧ m ≤ ell → g ell m = g' ell m) (m : Int) (hm : -ell ≤ m ∧ m ≤ ell) : vL v g ell m = vL v g' ell m := by
  unfold vL
  refine Finset.sum_congr rfl fun c _ => ?_
  rw [L_congr c g g' ell h m hm]

theorem inner_vL_rotated (a b : Int) (ha : 0 ≤ a) (f g f' g' : Fn) (Q : Quaternion ℝ) (hQ : UnitRotor Q)
    (hf : ∀ ell m, a ≤ ell → ell ≤ b → -ell ≤ m → m ≤ ell → f' ell m = rotF Q f ell m) (hg : ∀ ell m, a ≤ ell → ell ≤ b → -ell ≤ m → m ≤ ell → g' ell m = rotF Q g ell m)
    (v : Fin 3 → ℝ) : Verif.Spec.AngMom.inner a b f' (vL v g') = Verif.Spec.AngMom.inner a b f (vL (rotateVec Q v) g) := by
  refine Eq.trans ?_ (inner_rotF a b _ _ Q hQ)
  refine inner_congr a b _ _ _ _ (fun ell m he hm => hf ell m he.1 he.2 hm.1 hm.2) fun ell m he hm => ?_
  rw [vL_congr v g' (rotF Q g) ell (fun m hm => hg ell m he.1 he.2 hm.1 hm.2) m hm]
  exact vL_rotF v g Q hQ ell m (by omega) hm.1 hm.2

theorem inner_vL (a b : Int) (f g : Fn) (v : Fin 3 → ℝ) : Verif.Spec.AngMom.inner a b f (vL v g) = ∑ c, (v c : ℂ) * Verif.Spec.AngMom.inner a b f (L c g) := by
  unfold vL
  exact inner_sum a b f v (fun c => L c g)

/-- A vector from its components along all directions. -/
theorem vector_from_forms (Q : Quaternion ℝ) (hQ : UnitRotor Q) (p p' : Fin 3 → ℝ) (h : ∀ v : Fin 3 → ℝ, ∑ i, v i * p' i = ∑ i, rotateVec Q v i * p i) : p = rotateVec Q p' := by
  have e : p' = rotateVec (star Q) p := by
    funext j
    have := h (Pi.single j 1)
    rw [rotateVec_adjoint] at this
    simpa [Pi.single_apply] using this
  rw [e, ← Props.AbdTransform.rotateVec_mul, mul_star_unit hQ, Props.AbdTransform.rotateVec_one]

variable {a b : Int} {Q : Quaternion ℝ} {d d' e e' : Row ℂ}

theorem LVector_forms (ha : 0 ≤ a) (hQ : UnitRotor Q) (hd : RowRotated a b Q d d') (he : RowRotated a b Q e e') (v : Fin 3 → ℝ) :
    ∑ c, (v c : ℂ) * comp (LVector d' e' (LMRange a b)) c = ∑ c, (rotateVec Q v c : ℂ) * comp (LVector d e (LMRange a b)) c := by
  simp only [LVector_comp a b ha]
  rw [← inner_vL, ← inner_vL]
  exact inner_vL_rotated a b ha (fn a d) (fn a e) (fn a d') (fn a e') Q hQ hd he v

/-- C65: `LVector` is a vector: real and imaginary parts turn with the basis. -/
theorem LVector_rotated (ha : 0 ≤ a) (hQ : UnitRotor Q) (hd : RowRotated a b Q d d') (he : RowRotated a b Q e e') :
    (fun c => (comp (LVector d e (LMRange a b)) c).re) = rotateVec Q (fun c => (comp (LVector d' e' (LMRange a b)) c).re) ∧
    (fun c => (comp (LVector d e (LMRange a b)) c).im) = rotateVec Q (fun c => (comp (LVector d' e' (LMRange a b)) c).im) := by
  constructor
  · refine vector_from_forms Q hQ _ _ fun v => ?_
    have := congrArg Complex.re (LVector_forms ha hQ hd he v)
    simpa [Complex.re_sum] using this
  · refine vector_from_forms Q hQ _ _ fun v => ?_
    have := congrArg Complex.im (LVector_forms ha hQ hd he v)
    simpa [Complex.im_sum] using this

/-- C65: so is `LdtVector`. -/
theorem LdtVector_rotated (ha : 0 ≤ a) (hQ : UnitRotor Q) (hd : RowRotated a b Q d d') (he : RowRotated a b Q e e') :
    comp (LdtVector d e (LMRange a b)) = rotateVec Q (comp (LdtVector d' e' (LMRange a b))) := by
  have h := (LVector_rotated ha hQ hd he).2
  have e1 : ∀ x y : Row ℂ, comp (LdtVector x y (LMRange a b)) = fun c => (comp (LVector x y (LMRange a b)) c).im := by
    intro x y
    funext c
    rw [LdtVector_spec a b ha, LVector_comp a b ha]
  rw [e1, e1]
  exact h

/-- C65: `LLMatrix` is a tensor of rank two. -/
theorem LLMatrix_rotated (ha : 0 ≤ a) (hQ : UnitRotor Q) (hd : RowRotated a b Q d d') (v w : Fin 3 → ℝ) :
    ∑ i, ∑ j, v i * LLMatrix d' (LMRange a b) i j * w j = ∑ i, ∑ j, rotateVec Q v i * LLMatrix d (LMRange a b) i j * rotateVec Q w j := by
  rw [quad_form a b ha, quad_form a b ha]
  congr 1
  refine Eq.trans ?_ (inner_rotF a b _ _ Q hQ)
  have h : ∀ u : Fin 3 → ℝ, ∀ ell m, a ≤ ell ∧ ell ≤ b → -ell ≤ m ∧ m ≤ ell → vL u (fn a d') ell m = rotF Q (vL (rotateVec Q u) (fn a d)) ell m := by
    intro u ell m he hm
    rw [vL_congr u (fn a d') (rotF Q (fn a d)) ell (fun m hm => hd ell m he.1 he.2 hm.1 hm.2) m hm]
    exact vL_rotF u (fn a d) Q hQ ell m (by omega) hm.1 hm.2
  exact inner_congr a b _ _ _ _ (h v) (h w)

/-- A matrix applied to a rotated vector. -/
theorem LLMatrix_apply (ha : 0 ≤ a) (hQ : UnitRotor Q) (hd : RowRotated a b Q d d') (w : Fin 3 → ℝ) :
    (fun i => ∑ j, LLMatrix d (LMRange a b) i j * rotateVec Q w j) = rotateVec Q (fun i => ∑ j, LLMatrix d' (LMRange a b) i j * w j) := by
  refine vector_from_forms Q hQ _ _ fun v => ?_
  have := LLMatrix_rotated ha hQ hd v w
  simpa only [Finset.mul_sum, mul_assoc] using this

/-- C65: the eigenvectors of `LLMatrix`, in particular the dominant one, turn with the basis. -/
theorem eigenvector_rotated (ha : 0 ≤ a) (hQ : UnitRotor Q) (hd : RowRotated a b Q d d') (x : Fin 3 → ℝ) (lam : ℝ) :
    (∀ i, ∑ j, LLMatrix d' (LMRange a b) i j * x j = lam * x i) ↔ (∀ i, ∑ j, LLMatrix d (LMRange a b) i j * rotateVec Q x j = lam * rotateVec Q x i) := by
  have h := LLMatrix_apply ha hQ hd x
  have hlin : ∀ y : Fin 3 → ℝ, rotateVec Q (fun i => lam * y i) = fun i => lam * rotateVec Q y i := by
    intro y
    funext i
    fin_cases i
    · show rotateVec Q _ 0 = lam * rotateVec Q y 0
      rw [Verif.Lemmas.Bms.rotateVec_0, Verif.Lemmas.Bms.rotateVec_0]
      ring
    · show rotateVec Q _ 1 = lam * rotateVec Q y 1
      rw [Verif.Lemmas.Bms.rotateVec_1, Verif.Lemmas.Bms.rotateVec_1]
      ring
    · show rotateVec Q _ 2 = lam * rotateVec Q y 2
      rw [Verif.Lemmas.Bms.rotateVec_2, Verif.Lemmas.Bms.rotateVec_2]
      ring
  constructor
  · intro hx i
    have e : (fun i => ∑ j, LLMatrix d' (LMRange a b) i j * x j) = fun i => lam * x i := funext hx
    rw [e, hlin] at h
    exact congrFun h i
  · intro hx i
    have e : (fun i => ∑ j, LLMatrix d (LMRange a b) i j * rotateVec Q x j) = fun i => lam * rotateVec Q x i := funext hx
    rw [e, ← hlin] at h
    have h2 := congrArg (rotateVec (star Q)) h
    rw [← Props.AbdTransform.rotateVec_mul, ← Props.AbdTransform.rotateVec_mul, star_mul_unit hQ, Props.AbdTransform.rotateVec_one, Props.AbdTransform.rotateVec_one] at h2
    exact (congrFun h2 i).symm

theorem solves {solve : Mat ℝ → (Fin 3 → ℝ) → Py (Fin 3 → ℝ)} (hsolve : ∀ A l x, solve A l = .ok x → ∀ i, ∑ j, A i j * x j = l i) {w : Fin 3 → ℝ}
    (h : angularVelocity solve d e (LMRange a b) = .ok w) (i : Fin 3) : ∑ j, LLMatrix d (LMRange a b) i j * w j = -comp (LdtVector d e (LMRange a b)) i := by
  unfold angularVelocity at h
  simp only at h
  cases hs : solve (LLMatrix d (LMRange a b)) (fun c => if c = 0 then (LdtVector d e (LMRange a b)).1 else
      if c = 1 then (LdtVector d e (LMRange a b)).2.1 else (LdtVector d e (LMRange a b)).2.2) with
  | error e => rw [hs] at h; cases h
  | ok x =>
    rw [hs, ok_bind] at h
    have hw : (fun c => -x c) = w := by simpa [pure_eq_ok] using h
    have := hsolve _ _ _ hs i
    rw [← hw]
    simp only [mul_neg, Finset.sum_neg_distrib]
    rw [this]
    rfl

/-- C65: the angular velocity of a rotated waveform is the same vector with respect to the rotated axes, if no rotation leaves the modes unchanged. -/
theorem angular_velocity_rotated (ha : 0 ≤ a) (hQ : UnitRotor Q) (hd : RowRotated a b Q d d') (he : RowRotated a b Q e e')
    (solve : Mat ℝ → (Fin 3 → ℝ) → Py (Fin 3 → ℝ)) (hsolve : ∀ A l x, solve A l = .ok x → ∀ i, ∑ j, A i j * x j = l i)
    (hpd : ∀ v : Fin 3 → ℝ, v ≠ 0 → (Verif.Spec.AngMom.inner a b (vL v (fn a d)) (vL v (fn a d))).re ≠ 0)
    (w w' : Fin 3 → ℝ) (h : angularVelocity solve d e (LMRange a b) = .ok w) (h' : angularVelocity solve d' e' (LMRange a b) = .ok w') : w = rotateVec Q w' := by
  have s := solves hsolve h
  have s' := solves hsolve h'
  have key : ∀ i, ∑ j, LLMatrix d (LMRange a b) i j * rotateVec Q w' j = -comp (LdtVector d e (LMRange a b)) i := by
    intro i
    have h1 := congrFun (LLMatrix_apply ha hQ hd w') i
    refine h1.trans ?_
    rw [show (fun i => ∑ j, LLMatrix d' (LMRange a b) i j * w' j) = fun i => -comp (LdtVector d' e' (LMRange a b)) i from funext s', LdtVector_rotated ha hQ hd he]
    fin_cases i
    · show rotateVec Q _ 0 = -rotateVec Q _ 0
      rw [Verif.Lemmas.Bms.rotateVec_0, Verif.Lemmas.Bms.rotateVec_0]
      ring
    · show rotateVec Q _ 1 = -rotateVec Q _ 1
      rw [Verif.Lemmas.Bms.rotateVec_1, Verif.Lemmas.Bms.rotateVec_1]
      ring
    · show rotateVec Q _ 2 = -rotateVec Q _ 2
      rw [Verif.Lemmas.Bms.rotateVec_2, Verif.Lemmas.Bms.rotateVec_2]
      ring
  by_contra hne
  refine hpd (fun c => w c - rotateVec Q w' c) (fun h0 => hne ?_) ?_
  · funext c
    have := congrFun h0 c
    simp at this
    linarith
  · rw [← quad_form a b ha]
    refine Finset.sum_eq_zero fun i _ => ?_
    have : ∑ j, LLMatrix d (LMRange a b) i j * (w j - rotateVec Q w' j) = 0 := by
      simp only [mul_sub, Finset.sum_sub_distrib]
      rw [s i, key i]
      ring
    simp only [mul_assoc, ← Finset.mul_sum, this, mul_zero]

theorem last (x y z : ℝ) : (![x, y, z] : Fin 3 → ℝ) 2 = z := rfl

/-- C65: the angular momentum flux is a vector. -/
theorem angular_momentum_flux_rotated (interp : WM ℝ Unit ℂ → List ℝ → WM ℝ Unit ℂ) (spin : Int) (dot : WM ℝ Unit ℂ → WM ℝ Unit ℂ)
    (h : WM ℝ Unit ℂ) (hd : WM ℝ Unit ℂ) (hv : Valid h) (hn : 2 ≤ h.nCols) (dv : Valid hd) (ht : hd.t = h.t) (hmin : hd.ellMin = h.ellMin) (hmax : hd.ellMax = h.ellMax)
    (Q : Quaternion ℝ) (hQ : UnitRotor Q) (D tmp D' tmp' : Row ℂ) :
    ∃ J J', angularMomentumFlux interp Weights.h spin dot h (some (Weights.hdot, ⟨spin, hd⟩)) = .ok J ∧
      angularMomentumFlux interp Weights.h spin dot (rotated h Q D tmp) (some (Weights.hdot, ⟨spin, rotated hd Q D' tmp'⟩)) = .ok J' ∧
      J.length = h.t.length ∧ J'.length = h.t.length ∧
      ∀ (k : Nat) (hk : k < J.length) (hk' : k < J'.length), (![J[k].1, J[k].2.1, J[k].2.2] : Fin 3 → ℝ) = rotateVec Q ![J'[k].1, J'[k].2.1, J'[k].2.2] := by
  have hcols : hd.nCols = h.nCols := by
    have h1 := hv.modes
    have h2 := dv.modes
    rw [hmin, hmax, ← h1] at h2
    omega
  obtain ⟨v1, m1⟩ := rotated_modes h hv Q D tmp
  obtain ⟨v2, m2⟩ := rotated_modes hd dv Q D' tmp'
  have e1 := Props.Flux.angular_momentum_flux interp spin dot h (some (Weights.hdot, ⟨spin, hd⟩)) ⟨spin, hd⟩ (Or.inr rfl) rfl hv hn dv (by rw [hcols]; exact hn) ht hmin hmax
  have e2 := Props.Flux.angular_momentum_flux interp spin dot (rotated h Q D tmp) (some (Weights.hdot, ⟨spin, rotated hd Q D' tmp'⟩)) ⟨spin, rotated hd Q D' tmp'⟩ (Or.inr rfl) rfl v1 hn v2
    (by show 2 ≤ hd.nCols; rw [hcols]; exact hn) ht hmin hmax
  refine ⟨_, _, e1, e2, by simp, by simp [rotated], fun k hk hk' => ?_⟩
  simp only [List.getElem_map, List.getElem_range]
  have hk1 : k < h.data.length := by rw [hv.rows]; simpa using hk
  have hk2 : k < hd.data.length := by rw [dv.rows, ht]; simpa using hk
  refine vector_from_forms Q hQ _ _ fun v => ?_
  have key := congrArg Complex.im (inner_vL_rotated h.ellMin h.ellMax hv.min (Verif.Spec.Flux.modesOf hd k) (Verif.Spec.Flux.modesOf h k) (Verif.Spec.Flux.modesOf (rotated hd Q D' tmp') k)
    (Verif.Spec.Flux.modesOf (rotated h Q D tmp) k) Q hQ (fun ell m a b c d => m2 k hk2 ell m (hmin ▸ a) (hmax ▸ b) c d) (fun ell m a b c d => m1 k hk1 ell m a b c d) v)
  rw [inner_vL, inner_vL] at key
  simp only [Fin.sum_univ_three, Complex.add_im, Complex.im_ofReal_mul] at key ⊢
  simp only [Matrix.cons_val_zero, Matrix.cons_val_one, last]
  have hm1 : (rotated h Q D tmp).ellMin = h.ellMin := rfl
  have hm2 : (rotated h Q D tmp).ellMax = h.ellMax := rfl
  rw [hm1, hm2]
  linear_combination (1 / (16 * Real.pi)) * key

/-- The hypotheses are met: the example of C52, whose angular velocity is `(1, 2, 3)`, turned by a half turn about the x axis, has the angular velocity `(1, -2, -3)`. -/
example (W : Verif.Rotation.Wave) (hW : W = ⟨1, 1, [exRow, exDot], .vec []⟩) (D tmp : Row ℂ) :
    ∃ d' e', (Verif.Rotation.rotate W (.quat Props.Rotation.qi) D tmp).1.data[0]? = some d' ∧ (Verif.Rotation.rotate W (.quat Props.Rotation.qi) D tmp).1.data[1]? = some e' ∧
      RowRotated 1 1 Props.Rotation.qi exRow d' ∧ RowRotated 1 1 Props.Rotation.qi exDot e' ∧
      ∀ w', angularVelocity exSolve d' e' (LMRange 1 1) = .ok w' → exV = rotateVec Props.Rotation.qi w' := by
  subst hW
  obtain ⟨d', h1, h2⟩ := rotate_rows ⟨1, 1, [exRow, exDot], .vec []⟩ (by decide) Props.Rotation.qi D tmp 0 exRow rfl
  obtain ⟨e', h3, h4⟩ := rotate_rows ⟨1, 1, [exRow, exDot], .vec []⟩ (by decide) Props.Rotation.qi D tmp 1 exDot rfl
  exact ⟨d', e', h1, h3, h2, h4, fun w' hw' => angular_velocity_rotated (by decide) Props.Rotation.qi_unit h2 h4 exSolve ex_facts.1 ex_facts.2.1 _ _ ex_facts.2.2 hw'⟩

end Verif.Props.AngMomCov
