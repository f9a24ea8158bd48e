import Verif.Model.Norm
import Verif.Props.Norm
import Verif.Props.Rotation
import Verif.Props.InnerProduct
import Verif.Props.FluxIntegral
import Verif.Props.FluxCovariance

/-!
# The norm and the inner product on the sphere, and in other frames (C89)

The definitions that the theorems are about are those of C11 and C12 (rotations), C45 (`inner_product`) and C46 (`norm`, `max_norm_index`, `max_norm_time`).
-/

namespace Verif.Props.Overlap

open Verif Verif.Modes Verif.Rotation Verif.Norm Verif.Spec.Rotation Verif.Spec.Sphere Verif.Props.Rotation ComplexConjugate Finset Real

/-! ## Specification -/

/-- `w.data`: a row with one entry for each mode, at each time. -/
def table (W : Wave) : List (List ℂ) := W.data.map fun row => (List.range ((W.ellMax + 1) ^ 2 - W.ellMin ^ 2).toNat).map fun i : Nat => row (i : Int)

/-- The degrees are those of a waveform. -/
def Degrees (W : Wave) : Prop := 0 ≤ W.ellMin ∧ W.ellMin - 1 ≤ W.ellMax

/-! ## The norm -/

theorem row_sum (a b : Int) (h0 : 0 ≤ a) (h1 : a - 1 ≤ b) (row : Row ℂ) :
    rowNorm ((List.range ((b + 1) ^ 2 - a ^ 2).toNat).map fun i : Nat => row (i : Int)) = ∑ ell ∈ Icc a b, power ell fun m => row (lmIndex ell m a) := by
  have hk := map_index_LMRange a h0 (b + 1 - a).toNat
  rw [show a + ((b + 1 - a).toNat : Int) - 1 = b by omega, show a + ((b + 1 - a).toNat : Int) = b + 1 by omega] at hk
  have hr : (List.range ((b + 1) ^ 2 - a ^ 2).toNat).map (fun i : Nat => row (i : Int)) = (LMRange a b).map fun p => row (lmIndex p.1 p.2 a) := by
    have e : (LMRange a b).map (fun p => row (lmIndex p.1 p.2 a)) = ((LMRange a b).map fun p => lmIndex p.1 p.2 a).map row := by rw [List.map_map]; rfl
    rw [e, hk]
    simp [pyRange, List.map_map, Function.comp_def]
  rw [rowNorm_eq, hr, List.map_map]
  have e2 : (LMRange a b).map ((fun z : ℂ => ‖z‖ ^ 2) ∘ fun p => row (lmIndex p.1 p.2 a)) = (LMRange a b).map fun p => Complex.normSq (row (lmIndex p.1 p.2 a)) := by
    apply List.map_congr_left
    intro p _
    simp [Complex.normSq_eq_norm_sq]
  rw [e2, Verif.ModeCalc.sum_LMRange a b fun ell m => Complex.normSq (row (lmIndex ell m a))]
  rfl

theorem table_norm (W : Wave) (h : Degrees W) (i : Nat) (hi : i < W.data.length) : ((table W).map rowNorm)[i]? = some (∑ ell ∈ Icc W.ellMin W.ellMax, power ell (mode W i ell)) := by
  unfold table
  rw [List.map_map, List.getElem?_map, List.getElem?_eq_getElem hi, Option.map_some]
  simp only [Function.comp_apply]
  rw [row_sum W.ellMin W.ellMax h.1 h.2]
  unfold mode
  rw [List.getElem?_eq_getElem hi]

/-- C89: the norm (without the square root) at each time is the integral of `|h|²` over the sphere, `h` the function of any spin weight that modes with these `ell` can have. -/
theorem norm_integral (W : Wave) (h : Degrees W) (s : Int) (hs : |s| ≤ W.ellMin) :
    ∃ n, normArr (table W) false ⟨none, none, none⟩ = .ok n ∧ n.length = W.data.length ∧ ∀ (i : Nat) (hi : i < n.length),
      (n[i] : ℂ) = solid fun θ φ => conj (field s W.ellMin W.ellMax (mode W i) θ φ) * field s W.ellMin W.ellMax (mode W i) θ φ := by
  refine ⟨(table W).map rowNorm, ?_, by simp [table], fun i hi => ?_⟩
  · rw [Norm.norm_all]
    congr 1
    apply List.map_congr_left
    intro r _
    rw [rowNorm_eq]; rfl
  · have hi' : i < W.data.length := by simpa [table] using hi
    have e := table_norm W h i hi'
    rw [List.getElem?_eq_getElem hi, Option.some.injEq] at e
    rw [e, FluxIntegral.parseval s _ _ hs]
    unfold Verif.Spec.AngMom.inner power
    push_cast
    refine sum_congr rfl fun ell _ => sum_congr rfl fun m _ => ?_
    rw [Complex.normSq_eq_conj_mul_self]

/-! ## The norm of rotated waveforms -/

theorem slice_map {α β : Type} (f : α → β) (l : List α) (s : PySlice) : (pySlice l s).map (fun r => r.map f) = pySlice (l.map f) s := by
  unfold pySlice
  rw [List.length_map]
  cases s.positions l.length with
  | error e => rfl
  | ok idx =>
    show Except.ok ((gather l idx).map f) = Except.ok (gather (l.map f) idx)
    congr 1
    unfold gather
    rw [List.map_filterMap]
    congr 1
    funext i
    simp

theorem normArr_map (data : List (List ℂ)) (b : Bool) (s : PySlice) : normArr data b s = (pySlice (data.map rowNorm) s).map fun r => r.map fun x => if b then √x else x := by
  rw [← slice_map]
  unfold normArr
  cases pySlice data s with
  | error e => rfl
  | ok r =>
    show Except.ok _ = Except.ok ((r.map rowNorm).map fun x => if b then √x else x)
    rw [List.map_map]; rfl

theorem norms_rotated {V W : Wave} {R : Nat → Quaternion ℝ} (h : Degrees W) (hr : Rotated V W R) (hR : ∀ i < W.data.length, UnitRotor (R i)) :
    (table V).map rowNorm = (table W).map rowNorm := by
  have hV : Degrees V := by unfold Degrees; rw [hr.1, hr.2.1]; exact h
  apply List.ext_getElem?
  intro i
  by_cases hi : i < W.data.length
  · rw [table_norm W h i hi, table_norm V hV i (by rw [hr.2.2.1]; exact hi), hr.1, hr.2.1]
    congr 1
    refine sum_congr rfl fun ell he => ?_
    rw [mem_Icc] at he
    rw [← rot_power ell (R i) (hR i hi) (mode W i ell)]
    unfold power
    refine sum_congr rfl fun m hm => ?_
    rw [mem_Icc] at hm
    rw [hr.2.2.2 i ell m ⟨hi, he.1, he.2, hm.1, hm.2⟩]
  · rw [List.getElem?_eq_none (by simp [table, hr.2.2.1]; omega), List.getElem?_eq_none (by simp [table]; omega)]

/-- C89: rotations of the basis, by unit rotors that may be different at each time, do not change the norms, nor where they are largest. -/
theorem norm_rotated {V W : Wave} {R : Nat → Quaternion ℝ} (h : Degrees W) (hr : Rotated V W R) (hR : ∀ i < W.data.length, UnitRotor (R i)) :
    (∀ b s, normArr (table V) b s = normArr (table W) b s) ∧ (∀ skip, maxNormIndex (table V) skip = maxNormIndex (table W) skip) ∧
    ∀ {τ : Type} (t : List τ) (skip : Int), maxNormTime t (table V) skip = maxNormTime t (table W) skip := by
  have h1 : ∀ b s, normArr (table V) b s = normArr (table W) b s := fun b s => by rw [normArr_map, normArr_map, norms_rotated h hr hR]
  have h2 : ∀ skip, maxNormIndex (table V) skip = maxNormIndex (table W) skip := fun skip => by
    unfold maxNormIndex
    simp only [h1]
    rw [show (table V).length = (table W).length by simp [table, hr.2.2.1]]
  exact ⟨h1, h2, fun t skip => by unfold maxNormTime; rw [h2]⟩

/-- C89: the norm of `rotate_decomposition_basis(R)` for one rotor. -/
theorem norm_rotate (W : Wave) (h : Degrees W) (R : Quaternion ℝ) (hR : UnitRotor R) (D tmp : Row ℂ) (b : Bool) (s : PySlice) :
    normArr (table (rotate W (.quat R) D tmp).1) b s = normArr (table W) b s :=
  (norm_rotated h (constant_rotation W h.1 R D tmp).2 fun _ _ => hR).1 b s

/-- C89: the norm of `rotate_decomposition_basis(R)` for one rotor at each time. -/
theorem norm_rotate_series (W : Wave) (h : Degrees W) (l : List (Quaternion ℝ)) (hs : Shaped W l) (hl : l.length ≠ 1) (Rs : List (Quaternion ℝ)) (hn : Rs.length = W.data.length)
    (h1 : Rs.length ≠ 1) (hR : ∀ R ∈ Rs, UnitRotor R) (D tmp : Row ℂ) (b : Bool) (s : PySlice) :
    normArr (table (rotate W (.list Rs) D tmp).1) b s = normArr (table W) b s := by
  rw [(rotate_list W Rs D tmp h1).1]
  exact (norm_rotated h (series_ok W l hs h.1 Rs D hn h1 hl).2.1 fun i _ => unit_frameOf hR i).1 b s

theorem toInertial_rotated (W : Wave) (h0 : 0 ≤ W.ellMin) (l : List (Quaternion ℝ)) (hs : Shaped W l) (hne : l ≠ []) (D tmp : Row ℂ) :
    Rotated (toInertial W D tmp).1 W fun i => star (frameOf l i) := by
  unfold toInertial
  rw [hs.1]
  simp only [QArr.inv]
  by_cases h1 : l.length = 1
  · obtain ⟨q, rfl⟩ := List.length_eq_one_iff.mp h1
    exact (constant_rotation W h0 (star q) D tmp).2
  · have h2 : (l.map star).length ≠ 1 := by simpa using h1
    have h3 : (l.map star).length = W.data.length := by
      rcases hs.2 with h | h | h
      · exact absurd (List.length_eq_zero_iff.mp h) hne
      · exact absurd h h1
      · simpa using h
    rw [(rotate_list W (l.map star) D tmp h2).2]
    have := (series_ok W l hs h0 (l.map star) D h3 h2 h1).2.1
    rwa [show frameOf (l.map star) = fun i => star (frameOf l i) from funext (star_frameOf l)] at this

/-- C89: the norms and the time of the largest norm are the same in the inertial frame. -/
theorem norm_inertial (W : Wave) (h : Degrees W) (l : List (Quaternion ℝ)) (hs : Shaped W l) (hne : l ≠ []) (hu : ∀ R ∈ l, UnitRotor R) (D tmp : Row ℂ) :
    (∀ b s, normArr (table (toInertial W D tmp).1) b s = normArr (table W) b s) ∧
    ∀ {τ : Type} (t : List τ) (skip : Int), maxNormTime t (table (toInertial W D tmp).1) skip = maxNormTime t (table W) skip := by
  have := norm_rotated h (toInertial_rotated W h.1 l hs hne D tmp) fun i _ => by
    have := unit_frameOf hu i
    unfold UnitRotor at this ⊢
    rw [Quaternion.normSq_star]; exact this
  exact ⟨this.1, this.2.2⟩

/-! ## The inner product -/

open Verif.InnerProduct Verif.Flux Verif.Slicing Verif.Spec.Flux Verif.Spec.Slicing Verif.Spec.AngMom Verif.Props.InnerProduct

/-- C89: `a.inner_product(b)` is the time integral of the integral of `conj(a) b` over the sphere. -/
theorem inner_product_integral (interp : WM ℝ Unit ℂ → List ℝ → WM ℝ Unit ℂ) (weights : List ℝ → ℝ → ℝ → Nat → ℝ) (a b : Verif.Flux.Modes)
    (ha : Valid a.w) (hb : Valid b.w) (hs : a.spin = b.spin) (ht : a.w.t = b.w.t) (hmin : a.w.ellMin = b.w.ellMin) (hmax : a.w.ellMax = b.w.ellMax) (h : |a.spin| ≤ a.w.ellMin)
    (allowLM allowT : Bool) (t1 t2 : Option ℝ) (x1 x2 : ℝ) (hl : Limits a.w.t t1 t2 x1 x2) :
    innerProduct interp weights a b t1 t2 allowLM allowT = .ok (∑ k ∈ range a.w.t.length, (weights a.w.t x1 x2 k : ℂ) *
      solid fun θ φ => conj (field a.spin a.w.ellMin a.w.ellMax (modesOf a.w k) θ φ) * field b.spin b.w.ellMin b.w.ellMax (modesOf b.w k) θ φ) := by
  rw [inner_product_spec interp weights a b ha hb hs ht allowLM allowT (Or.inl ⟨hmin, hmax⟩) t1 t2 x1 x2 hl]
  congr 1
  refine sum_congr rfl fun k _ => ?_
  rw [← hs, ← hmin, ← hmax, max_self, min_self, FluxIntegral.parseval a.spin _ _ h]

theorem rot_inner (ell : Int) (R : Quaternion ℝ) (hR : UnitRotor R) (f g : Int → ℂ) :
    ∑ m ∈ Icc (-ell) ell, conj (rot ell R f m) * rot ell R g m = ∑ m ∈ Icc (-ell) ell, conj (f m) * g m := by
  have h1 : ∀ m ∈ Icc (-ell) ell, conj (rot ell R f m) * rot ell R g m = ∑ k ∈ Icc (-ell) ell, conj (f k) * (rot ell R g m * Verif.Wigner.Dlm ell (star R) m k) := by
    intro m hm
    rw [mem_Icc] at hm
    conv_lhs => lhs; unfold rot
    rw [map_sum, sum_mul]
    refine sum_congr rfl fun k hk => ?_
    rw [mem_Icc] at hk
    rw [map_mul, Dlm_star ell R m k hm hk]
    ring
  rw [sum_congr rfl h1, sum_comm]
  refine sum_congr rfl fun k hk => ?_
  rw [mem_Icc] at hk
  rw [← mul_sum]
  have := rot_rot ell R (star R) g k hk
  rw [unit_right hR, rot_one ell g k hk] at this
  conv_lhs at this => unfold rot
  rw [← this]
  rfl

/-- The modes of `w'` are those of `w` with respect to bases that are rotated by `R` at each time. -/
def Turned (w' w : WM ℝ Unit ℂ) (R : Nat → Quaternion ℝ) : Prop :=
  w'.t = w.t ∧ w'.ellMin = w.ellMin ∧ w'.ellMax = w.ellMax ∧
    ∀ k < w.t.length, ∀ ell m, w.ellMin ≤ ell → ell ≤ w.ellMax → -ell ≤ m → m ≤ ell → modesOf w' k ell m = rot ell (R k) (modesOf w k ell) m

/-- C89: rotating both waveforms in the same way, be it differently at each time, does not change their inner product. -/
theorem inner_product_rotated (interp : WM ℝ Unit ℂ → List ℝ → WM ℝ Unit ℂ) (weights : List ℝ → ℝ → ℝ → Nat → ℝ) (a b a' b' : Verif.Flux.Modes)
    (ha : Valid a.w) (hb : Valid b.w) (ha' : Valid a'.w) (hb' : Valid b'.w) (hs : a.spin = b.spin) (sa : a'.spin = a.spin) (sb : b'.spin = b.spin)
    (ht : a.w.t = b.w.t) (hmin : a.w.ellMin = b.w.ellMin) (hmax : a.w.ellMax = b.w.ellMax) (R : Nat → Quaternion ℝ) (hR : ∀ k < a.w.t.length, UnitRotor (R k))
    (ra : Turned a'.w a.w R) (rb : Turned b'.w b.w R) (allowLM allowT : Bool) (t1 t2 : Option ℝ) (x1 x2 : ℝ) (hl : Limits a.w.t t1 t2 x1 x2) :
    innerProduct interp weights a' b' t1 t2 allowLM allowT = innerProduct interp weights a b t1 t2 allowLM allowT := by
  obtain ⟨ra1, ra2, ra3, ra4⟩ := ra
  obtain ⟨rb1, rb2, rb3, rb4⟩ := rb
  rw [inner_product_spec interp weights a b ha hb hs ht allowLM allowT (Or.inl ⟨hmin, hmax⟩) t1 t2 x1 x2 hl,
    inner_product_spec interp weights a' b' ha' hb' (by rw [sa, sb, hs]) (by rw [ra1, rb1, ht]) allowLM allowT (Or.inl ⟨by rw [ra2, rb2, hmin], by rw [ra3, rb3, hmax]⟩) t1 t2 x1 x2
      (by rw [ra1]; exact hl), ra1, ra2, ra3, rb2, rb3]
  congr 1
  refine sum_congr rfl fun k hk => ?_
  rw [mem_range] at hk
  congr 1
  unfold Verif.Spec.AngMom.inner
  refine sum_congr rfl fun ell he => ?_
  rw [← hmin, ← hmax, max_self, min_self, mem_Icc] at he
  rw [← rot_inner ell (R k) (hR k hk) (modesOf a.w k ell)]
  refine sum_congr rfl fun m hm => ?_
  rw [mem_Icc] at hm
  rw [ra4 k hk ell m he.1 he.2 hm.1 hm.2, rb4 k (ht ▸ hk) ell m (hmin ▸ he.1) (hmax ▸ he.2) hm.1 hm.2]

/-- A rotation of both waveforms with `rotate_decomposition_basis`. -/
theorem inner_product_rotate (interp : WM ℝ Unit ℂ → List ℝ → WM ℝ Unit ℂ) (weights : List ℝ → ℝ → ℝ → Nat → ℝ) (a b : Verif.Flux.Modes)
    (ha : Valid a.w) (hb : Valid b.w) (hs : a.spin = b.spin) (ht : a.w.t = b.w.t) (hmin : a.w.ellMin = b.w.ellMin) (hmax : a.w.ellMax = b.w.ellMax)
    (Q : Quaternion ℝ) (hQ : UnitRotor Q) (D tmp D' tmp' : Row ℂ) (allowLM allowT : Bool) (t1 t2 : Option ℝ) (x1 x2 : ℝ) (hl : Limits a.w.t t1 t2 x1 x2) :
    innerProduct interp weights ⟨a.spin, FluxCovariance.rotated a.w Q D tmp⟩ ⟨b.spin, FluxCovariance.rotated b.w Q D' tmp'⟩ t1 t2 allowLM allowT =
      innerProduct interp weights a b t1 t2 allowLM allowT := by
  obtain ⟨v1, m1⟩ := FluxCovariance.rotated_modes a.w ha Q D tmp
  obtain ⟨v2, m2⟩ := FluxCovariance.rotated_modes b.w hb Q D' tmp'
  exact inner_product_rotated interp weights a b ⟨a.spin, _⟩ ⟨b.spin, _⟩ ha hb v1 v2 hs rfl rfl ht hmin hmax (fun _ => Q) (fun _ _ => hQ)
    ⟨rfl, rfl, rfl, fun k hk => m1 k (by rw [ha.rows]; exact hk)⟩ ⟨rfl, rfl, rfl, fun k hk => m2 k (by rw [hb.rows]; exact hk)⟩ allowLM allowT t1 t2 x1 x2 hl

/-- C89: the Cauchy-Schwarz inequality, if the weights of the quadrature are not negative: no overlap is larger than one. -/
theorem cauchy_schwarz (interp : WM ℝ Unit ℂ → List ℝ → WM ℝ Unit ℂ) (weights : List ℝ → ℝ → ℝ → Nat → ℝ) (a b : Verif.Flux.Modes)
    (ha : Valid a.w) (hb : Valid b.w) (hs : a.spin = b.spin) (ht : a.w.t = b.w.t) (hmin : a.w.ellMin = b.w.ellMin) (hmax : a.w.ellMax = b.w.ellMax)
    (allowLM allowT : Bool) (t1 t2 : Option ℝ) (x1 x2 : ℝ) (hl : Limits a.w.t t1 t2 x1 x2) (hw : ∀ k, k < a.w.t.length → 0 ≤ weights a.w.t x1 x2 k) :
    ∃ x y z : ℂ, innerProduct interp weights a b t1 t2 allowLM allowT = .ok z ∧ innerProduct interp weights a a t1 t2 allowLM allowT = .ok x ∧
      innerProduct interp weights b b t1 t2 allowLM allowT = .ok y ∧ ‖z‖ ^ 2 ≤ x.re * y.re := by
  have hlb : Limits b.w.t t1 t2 x1 x2 := by rw [← ht]; exact hl
  refine ⟨_, _, _, inner_product_spec interp weights a b ha hb hs ht allowLM allowT (Or.inl ⟨hmin, hmax⟩) t1 t2 x1 x2 hl,
    inner_product_spec interp weights a a ha ha rfl rfl allowLM allowT (Or.inl ⟨rfl, rfl⟩) t1 t2 x1 x2 hl,
    inner_product_spec interp weights b b hb hb rfl rfl allowLM allowT (Or.inl ⟨rfl, rfl⟩) t1 t2 x1 x2 hlb, ?_⟩
  rw [← hmin, ← hmax, ← ht, max_self, min_self]
  -- all sums are sums over one finite set
  let S : Finset (Nat × (Σ _ : Int, Int)) := range a.w.t.length ×ˢ (Icc a.w.ellMin a.w.ellMax).sigma fun ell => Icc (-ell) ell
  have flat : ∀ f g : Nat → Int → Int → ℂ, ∑ k ∈ range a.w.t.length, (weights a.w.t x1 x2 k : ℂ) * inner a.w.ellMin a.w.ellMax (f k) (g k) =
      ∑ p ∈ S, (weights a.w.t x1 x2 p.1 : ℂ) * (conj (f p.1 p.2.1 p.2.2) * g p.1 p.2.1 p.2.2) := by
    intro f g
    rw [sum_product]
    refine sum_congr rfl fun k _ => ?_
    unfold Verif.Spec.AngMom.inner
    rw [mul_sum, sum_sigma]
    refine sum_congr rfl fun ell _ => ?_
    rw [mul_sum]
  have hre : ∀ f : Nat → Int → Int → ℂ, (∑ p ∈ S, (weights a.w.t x1 x2 p.1 : ℂ) * (conj (f p.1 p.2.1 p.2.2) * f p.1 p.2.1 p.2.2)).re =
      ∑ p ∈ S, (√(weights a.w.t x1 x2 p.1) * ‖f p.1 p.2.1 p.2.2‖) ^ 2 := by
    intro f
    rw [Complex.re_sum]
    refine sum_congr rfl fun p hp => ?_
    have h0 := hw p.1 (mem_range.mp (mem_product.mp hp).1)
    rw [← Complex.normSq_eq_conj_mul_self, mul_pow, Real.sq_sqrt h0, Complex.normSq_eq_norm_sq, ← Complex.ofReal_mul, Complex.ofReal_re]
  rw [flat, flat, flat, hre, hre]
  have hn : ‖∑ p ∈ S, (weights a.w.t x1 x2 p.1 : ℂ) * (conj (modesOf a.w p.1 p.2.1 p.2.2) * modesOf b.w p.1 p.2.1 p.2.2)‖ ≤
      ∑ p ∈ S, (√(weights a.w.t x1 x2 p.1) * ‖modesOf a.w p.1 p.2.1 p.2.2‖) * (√(weights a.w.t x1 x2 p.1) * ‖modesOf b.w p.1 p.2.1 p.2.2‖) := by
    refine (norm_sum_le _ _).trans (le_of_eq (sum_congr rfl fun p hp => ?_))
    have h0 := hw p.1 (mem_range.mp (mem_product.mp hp).1)
    rw [norm_mul, norm_mul, Complex.norm_conj, Complex.norm_real, Real.norm_eq_abs, abs_of_nonneg h0]
    nth_rewrite 1 [← Real.mul_self_sqrt h0]
    ring
  exact (pow_le_pow_left₀ (norm_nonneg _) hn 2).trans (sum_mul_sq_le_sq_mul_sq S _ _)

/-- The hypotheses are met: the example waveform of C22, rotated by a half turn, and the trapezoidal rule. -/
example (interp : WM ℝ Unit ℂ → List ℝ → WM ℝ Unit ℂ) :
    innerProduct interp (fun _ _ _ _ => 1 / 2) ⟨-2, FluxCovariance.rotated Flux.sample qi 0 0⟩ ⟨-2, FluxCovariance.rotated Flux.sample qi 0 0⟩ none none false false =
      innerProduct interp (fun _ _ _ _ => 1 / 2) ⟨-2, Flux.sample⟩ ⟨-2, Flux.sample⟩ none none false false :=
  inner_product_rotate interp _ ⟨-2, Flux.sample⟩ ⟨-2, Flux.sample⟩ Flux.sample_valid Flux.sample_valid rfl rfl rfl rfl qi qi_unit 0 0 0 0 false false none none 0 1
    ⟨Or.inr ⟨rfl, rfl⟩, Or.inr ⟨rfl, rfl⟩⟩

/-- And a waveform in a frame of one rotor at each time. -/
example (D tmp : Row ℂ) : maxNormTime [(0 : ℝ), 1] (table (toInertial ⟨2, 2, [fun i => i, fun i => 2 * i], .vec [qi, 1]⟩ D tmp).1) 4 =
    maxNormTime [(0 : ℝ), 1] (table ⟨2, 2, [fun i => i, fun i => 2 * i], .vec [qi, 1]⟩) 4 :=
  (norm_inertial ⟨2, 2, [fun i => i, fun i => 2 * i], .vec [qi, 1]⟩ ⟨by decide, by decide⟩ [qi, 1] ⟨rfl, Or.inr (Or.inr rfl)⟩ (by simp) (by
    intro R hR
    rcases List.mem_cons.mp hR with rfl | hR
    · exact qi_unit
    · rw [List.mem_singleton.mp hR]; exact unit_one) D tmp).2 _ 4

end Verif.Props.Overlap
