import Verif.Spec.GridModes
import Verif.Lemmas.GridRect
import Verif.Props.GridMultiply
import Verif.Props.Rotation
import Verif.Props.AbdTransform
import Verif.Props.Compare
import Verif.Props.TransformKwargs

/-!
# Properties of `WaveformGrid.from_modes`, `to_modes` and `transform` (C60)
-/

namespace Verif.Props.GridModes

open Verif Verif.Modes Verif.GridModes Verif.GridModes.Spec Verif.TransformKwargs Verif.AbdTransform
open Verif.GridMultiply (Y rect)
open Verif.GridMultiply.Spec (expansion modesOf)

/-! ## The contracts can be met -/

/-- Values on the grid determine the modes. -/
theorem exact_exists : ∃ map2salm, Spec.Exact map2salm := by
  classical
  let K0 (nt np : Nat) : Nat := (min nt np - 1) / 2
  let P (grid : List ℂ) (nt np : Nat) (s : Int) (row : Row ℂ) : Prop := (rect nt np).map (expansion s (K0 nt np) (modesOf row)) = grid
  refine ⟨fun grid nt np s _ => if h : ∃ row, P grid nt np s row then Classical.choose h else fun _ => 0, ?_⟩
  intro nt np s K lmax c ell m hK hnt hnp hl h2 h3 h4 h5
  have hK0 : K ≤ K0 nt np := by
    simp only [K0]
    omega
  let c' : Int → Int → ℂ := fun a b => if a ≤ K then c a b else 0
  have hrow : ∃ row : Row ℂ, ∀ ell m : Int, -ell ≤ m → m ≤ ell → modesOf row ell m = c' ell m := by
    refine ⟨fun i => if h : ∃ lm : Int × Int, (-lm.1 ≤ lm.2 ∧ lm.2 ≤ lm.1) ∧ lmIndex lm.1 lm.2 0 = i then c' (Classical.choose h).1 (Classical.choose h).2 else 0, ?_⟩
    intro ell m h1 h2
    unfold modesOf
    have hex : ∃ lm : Int × Int, (-lm.1 ≤ lm.2 ∧ lm.2 ≤ lm.1) ∧ lmIndex lm.1 lm.2 0 = lmIndex ell m 0 := ⟨(ell, m), ⟨h1, h2⟩, rfl⟩
    simp only [dif_pos hex]
    have hc := Classical.choose_spec hex
    have := lmIndex_inj hc.1 ⟨h1, h2⟩ hc.2
    rw [this.1, this.2]
  obtain ⟨row, hr⟩ := hrow
  have hex : ∃ row, P ((rect nt np).map (expansion s K c)) nt np s row := by
    refine ⟨row, ?_⟩
    show List.map _ _ = List.map _ _
    refine List.map_congr_left fun R _ => ?_
    rw [← GridMultiply.expansion_extend s hK0]
    unfold expansion
    refine Finset.sum_congr rfl fun a _ => Finset.sum_congr rfl fun b hb => ?_
    rw [Finset.mem_Icc] at hb
    rw [hr a b hb.1 hb.2]
  simp only [dif_pos hex]
  have hc := Classical.choose_spec hex
  have hc' : (rect nt np).map (expansion s (K0 nt np) (modesOf (Classical.choose hex))) = (rect nt np).map (expansion s (K0 nt np) c') := by
    refine Eq.trans hc (List.map_congr_left fun R _ => ?_)
    rw [← GridMultiply.expansion_extend s hK0]
  have := Verif.GridMultiply.rect_injective s (K0 nt np) nt np (by simp only [K0]; omega) (by simp only [K0]; omega) _ _ hc' ell m h2 (by omega) h4 h5
  exact Eq.trans this (if_pos (by omega))

theorem interpolates_exists : ∃ spline, Spec.Interpolates spline := by
  classical
  refine ⟨fun nodes x => if h : ∃ p ∈ nodes, p.1 = x then (Classical.choose h).2 else 0, ?_⟩
  intro nodes hn p hp
  have hex : ∃ q ∈ nodes, q.1 = p.1 := ⟨p, hp, rfl⟩
  simp only [dif_pos hex]
  have hc := Classical.choose_spec hex
  have hinj : Set.InjOn Prod.fst {q | q ∈ nodes} := List.inj_on_of_nodup_map (hn.imp fun h => h.ne)
  rw [hinj hc.1 hp hc.2]

/-! ## Harmonics in a rotated direction -/

theorem Y_mul (s ell m : Int) (R n : Quaternion ℝ) (h1 : -ell ≤ m) (h2 : m ≤ ell) :
    Y s ell m (R * n) = ∑ m' ∈ Finset.Icc (-ell) ell, Wigner.Dlm ell R m m' * Y s ell m' n := by
  unfold Y
  by_cases h : |s| ≤ ell
  · simp only [if_pos h]
    rw [abs_le] at h
    rw [Verif.Rotation.Dlm_mul ell R n m (-s) ⟨h1, h2⟩ ⟨by omega, by omega⟩, Finset.mul_sum]
    exact Finset.sum_congr rfl fun k _ => by ring
  · simp only [if_neg h, mul_zero, Finset.sum_const_zero]

/-- The field in a rotated direction has the rotated modes. -/
theorem expansion_rotated (s L : Int) (c : Int → Int → ℂ) (R n : Quaternion ℝ) :
    expansion s L c (R * n) = expansion s L (fun ell => Verif.Spec.Rotation.rot ell R (c ell)) n := by
  unfold expansion
  refine Finset.sum_congr rfl fun ell _ => ?_
  have : ∀ m ∈ Finset.Icc (-ell) ell, c ell m * Y s ell m (R * n) = ∑ m' ∈ Finset.Icc (-ell) ell, c ell m * Wigner.Dlm ell R m m' * Y s ell m' n := by
    intro m hm
    rw [Finset.mem_Icc] at hm
    rw [Y_mul s ell m R n hm.1 hm.2, Finset.mul_sum]
    exact Finset.sum_congr rfl fun k _ => by ring
  rw [Finset.sum_congr rfl this, Finset.sum_comm]
  refine Finset.sum_congr rfl fun m _ => ?_
  unfold Verif.Spec.Rotation.rot
  rw [Finset.sum_mul]

/-! ## Evaluation on the grid -/

theorem LMRange_append {a b c : Int} (h1 : a ≤ b + 1) (h2 : b ≤ c) : LMRange a c = LMRange a b ++ LMRange (b + 1) c := by
  unfold LMRange
  rw [← List.flatMap_append]
  congr 1
  exact (pyRange_append (by omega) (by omega)).symm

theorem slice_swsh (R : Quaternion ℝ) (s : Int) {a b L : Int} (h0 : 0 ≤ a) (h1 : a ≤ b) (h2 : b ≤ L) : slice (swsh R s L) a b = (LMRange a b).map fun lm => Y s lm.1 lm.2 R := by
  have l1 := Props.Modes.LM_length 0 (a - 1) le_rfl (by omega)
  have l2 := Props.Modes.LM_length 0 b le_rfl (by omega)
  have e1 : (lmIndex b b 0 + 1).toNat = (LMRange 0 b).length := by
    unfold lmIndex
    have : b * (b + 1) - 0 ^ 2 + b + 1 = (b + 1) ^ 2 - 0 ^ 2 := by ring
    omega
  have e2 : (lmIndex a (-a) 0).toNat = (LMRange 0 (a - 1)).length := by
    unfold lmIndex
    have : a * (a + 1) - 0 ^ 2 + -a = (a - 1 + 1) ^ 2 - 0 ^ 2 := by ring
    omega
  unfold slice swsh
  rw [e1, e2, LMRange_append (a := 0) (b := b) (c := L) (by omega) h2, List.map_append, List.take_append_of_le_length (by simp), List.take_of_length_le (by simp),
    LMRange_append (a := 0) (b := a - 1) (c := b) (by omega) (by omega), List.map_append, List.drop_append_of_le_length (by simp), List.drop_of_length_le (by simp)]
  simp

theorem tensordot_eq (row : Row ℂ) (a b : Int) (h0 : 0 ≤ a) (f : Int × Int → ℂ) : tensordot row ((LMRange a b).map f) = ((LMRange a b).map fun lm => row (lmIndex lm.1 lm.2 a) * f lm).sum := by
  unfold tensordot
  congr 1
  refine List.ext_getElem (by simp) fun i h1 h2 => ?_
  simp only [List.length_map, List.length_zipIdx] at h1
  simp only [List.getElem_map, List.getElem_zipIdx, zero_add]
  have := Props.Modes.index_LM a b h0 i (LMRange a b)[i].1 (LMRange a b)[i].2 (List.getElem?_eq_getElem h1)
  rw [this]

/-- The sum over all modes as a double sum. -/
theorem LM_sum (a b : Int) (f : Int → Int → ℂ) : ((LMRange a b).map fun lm => f lm.1 lm.2).sum = ∑ ell ∈ Finset.Icc a b, ∑ m ∈ Finset.Icc (-ell) ell, f ell m := by
  unfold LMRange
  rw [List.map_flatMap, List.flatMap_def, List.sum_flatten, List.map_map, ← GridMultiply.sum_pyRange a b]
  congr 1
  refine List.map_congr_left fun ell _ => ?_
  show (List.map _ (List.map _ _)).sum = _
  rw [List.map_map, ← GridMultiply.sum_pyRange]
  rfl

/-- What is evaluated on the grid is the function with the modes of the waveform. -/
theorem field_eq (w : WModes) (s L : Int) (row : Row ℂ) (R : Quaternion ℝ) (h0 : 0 ≤ w.ellMin) (h1 : w.ellMin ≤ w.ellMax) (h2 : w.ellMax ≤ L) :
    field w s L row R = expansion s w.ellMax (rowModes w row) R := by
  unfold field
  rw [slice_swsh R s h0 h1 h2, tensordot_eq _ _ _ h0]
  rw [LM_sum w.ellMin w.ellMax fun ell m => row (lmIndex ell m w.ellMin) * Y s ell m R]
  unfold expansion
  refine Eq.trans ?_ (Finset.sum_subset (s₁ := Finset.Icc w.ellMin w.ellMax) (Finset.Icc_subset_Icc_left h0) ?_)
  · refine Finset.sum_congr rfl fun ell he => Finset.sum_congr rfl fun m _ => ?_
    rw [Finset.mem_Icc] at he
    simp only [rowModes, if_pos he.1]
  · intro ell he hn
    rw [Finset.mem_Icc] at he hn
    refine Finset.sum_eq_zero fun m _ => ?_
    simp only [rowModes]
    rw [if_neg (by omega), zero_mul]

theorem dot_eq (f : Charges.Modes) (s L : Int) (R : Quaternion ℝ) : dot f s L R = expansion s L f R := LM_sum 0 L fun ell m => f ell m * Y s ell m R

/-- The interpolated field in one direction. -/
noncomputable def sampled (spline : List (ℝ × ℝ) → ℝ → ℝ) (xs : List ℝ) (ys : List ℂ) (u : ℝ) : ℂ := ⟨spline (xs.zip (ys.map Complex.re)) u, spline (xs.zip (ys.map Complex.im)) u⟩

theorem sampled_node {spline : List (ℝ × ℝ) → ℝ → ℝ} (hs : Spec.Interpolates spline) (xs : List ℝ) (ys : List ℂ) (hx : xs.Pairwise (· < ·)) (hl : ys.length = xs.length) (i : Nat) (hi : i < xs.length) :
    sampled spline xs ys xs[i] = ys[i]'(by omega) := by
  have h : ∀ f : ℂ → ℝ, spline (xs.zip (ys.map f)) xs[i] = f (ys[i]'(by omega)) := by
    intro f
    refine hs (xs.zip (ys.map f)) ?_ (xs[i], f (ys[i]'(by omega))) ?_
    · rw [List.map_fst_zip (by simp [hl])]
      exact hx
    · rw [List.mem_iff_getElem]
      exact ⟨i, by simp [hl, hi], by simp⟩
  unfold sampled
  rw [h, h]

theorem resample_ok (spline : List (ℝ × ℝ) → ℝ → ℝ) (t ts : List ℝ) (d : GridDir) (ys : List ℂ) (h4 : 4 ≤ t.length) (ht : t.Pairwise (· < ·)) (hk : 0 < d.k) :
    resample spline t ts d ys = .ok (ts.map (sampled spline (t.map fun u => d.k * (u - d.alpha)) ys)) := by
  have hp : (t.map fun u => d.k * (u - d.alpha)).Pairwise (· < ·) := by
    rw [List.pairwise_map]
    exact ht.imp fun {a b} h => mul_lt_mul_of_pos_left (by linarith) hk
  unfold resample
  simp only
  rw [if_neg (by simpa using hp), if_neg (by simp; omega)]
  rfl

/-- All grids are computed like this. -/
theorem evaluate_ok (spline : List (ℝ × ℝ) → ℝ → ℝ) (other : Int → Option WModes) (w : WModes) (r : GridResult) (s c : Int) (hs : Weights.spinWeight w.dataType = .ok s)
    (hc : Weights.conformalWeight w.dataType w.rOut = .ok c) (h4 : 4 ≤ w.t.length) (ht : w.t.Pairwise (· < ·)) (g : ℝ) (hg : g = gamma (vabs (vec3 r.boost_velocity)))
    (ys : Quaternion ℝ → List ℂ) (hys : ∀ R ∈ rotors r, column other r g w s c R = .ok (ys R)) (ts : List ℝ)
    (hts : gridSlices g (constantFrom (r.supertranslation 0)).re w.t ((rotors r).map (direction r g)) = .ok ts) (hk : ∀ R ∈ rotors r, 0 < (direction r g R).k) :
    evaluate spline other w r = .ok { t := ts, dataType := w.dataType, inertial := w.inertial, rOut := w.rOut, mOut := w.mOut, nTheta := r.n_theta.toNat, nPhi := r.n_phi.toNat, data := (ts.map fun u => (rotors r).map fun R => sampled spline (w.t.map fun u => (direction r g R).k * (u - (direction r g R).alpha)) (ys R) u), frame := [] } := by
  subst hg
  unfold evaluate
  simp only [hs, hc, ok_bind]
  rw [Props.Compare.mapM_ok _ ys _ hys, ok_bind, hts, ok_bind]
  rw [Props.Compare.mapM_ok _ (fun p => ts.map (sampled spline (w.t.map fun u => p.1.k * (u - p.1.alpha)) p.2))]
  · rw [ok_bind, pure_eq_ok]
    congr 2
    refine List.ext_getElem (by simp) fun i h1 h2 => ?_
    simp only [List.length_map, List.length_range] at h1
    simp only [List.getElem_map, List.getElem_range]
    rw [List.zip_map', List.map_map, List.map_map]
    refine List.map_congr_left fun R _ => ?_
    simp [List.getD_eq_getElem?_getD, h1]
  · intro p hp
    refine resample_ok spline w.t ts p.1 p.2 h4 ht ?_
    have := (List.of_mem_zip hp).1
    obtain ⟨R, hR, e⟩ := List.mem_map.mp this
    rw [← e]
    exact hk R hR

/-! ## Time translations and rotations -/

/-- Neither a boost nor a supertranslation beyond `ell = 0`. -/
structure Triv (r : GridResult) (tau : ℝ) (R : Quaternion ℝ) : Prop where
  velocity : r.boost_velocity = [0, 0, 0]
  ls : 0 ≤ r.ellMaxSuper
  super0 : r.supertranslation 0 = constantAs tau
  super : ∀ i, i ≠ 0 → r.supertranslation i = 0
  rotation : r.frame_rotation = R

theorem vec3_zero : vec3 [0, 0, 0] = fun _ => 0 := by
  funext i
  fin_cases i <;> rfl

theorem vabs_zero : vabs (fun _ => 0) = 0 := by simp [vabs]

theorem Triv.rotors {r : GridResult} {tau : ℝ} {R : Quaternion ℝ} (h : Triv r tau R) : rotors r = (rect r.n_theta.toNat r.n_phi.toNat).map (R * ·) := by
  unfold GridModes.rotors
  simp only [h.velocity, vec3_zero, vabs_zero, h.rotation]
  refine List.map_congr_left fun n _ => ?_
  simp [Bprm]

theorem Y000 (R : Quaternion ℝ) : Y 0 0 0 R = ((√(4 * Real.pi))⁻¹ : ℝ) := by
  unfold Y Wigner.Dlm
  have : Wigner.D 0 R 0 0 = 1 := by simp [Wigner.D, Wigner.coef, Wigner.nu]
  norm_num [this]

theorem constant_value (tau : ℝ) (R : Quaternion ℝ) : (constantAs tau * Y 0 0 0 R).re = tau := by
  rw [Y000, constantAs, ← Complex.ofReal_mul, Complex.ofReal_re, mul_assoc, mul_inv_cancel₀ (by positivity), mul_one]

theorem constantFrom_as (tau : ℝ) : (constantFrom (constantAs tau)).re = tau := by
  unfold constantFrom constantAs
  rw [← Complex.ofReal_div, Complex.ofReal_re]
  field_simp

theorem gamma_zero : gamma 0 = 1 := by simp [gamma]

theorem Triv.direction {r : GridResult} {tau : ℝ} {R : Quaternion ℝ} (h : Triv r tau R) (n : Quaternion ℝ) : (direction r 1 n).k = 1 ∧ (direction r 1 n).alpha = tau := by
  constructor
  · simp [GridModes.direction, h.velocity, vec3_zero]
  · simp only [GridModes.direction]
    rw [dot_eq]
    have : expansion 0 r.ellMaxSuper (fun ell m => r.supertranslation (lmIndex ell m 0)) n = constantAs tau * Y 0 0 0 n := by
      unfold expansion
      rw [Finset.sum_eq_single 0]
      · simp [lmIndex, h.super0]
      · intro ell he hne
        rw [Finset.mem_Icc] at he
        refine Finset.sum_eq_zero fun m hm => ?_
        rw [Finset.mem_Icc] at hm
        have hb := lmIndex_block 0 hm
        show r.supertranslation (lmIndex ell m 0) * _ = 0
        rw [h.super _ (by nlinarith [hb.1, sq_nonneg ell, sq_pos_of_ne_zero hne]), zero_mul]
      · intro hn
        exact absurd (Finset.mem_Icc.mpr ⟨le_rfl, h.ls⟩) hn
    rw [this, constant_value]

theorem Triv.trivial {r : GridResult} {tau : ℝ} {R : Quaternion ℝ} (h : Triv r tau R) : isTrivial r = true := by
  unfold isTrivial
  refine decide_eq_true ⟨?_, fun i hi => ?_⟩
  · rw [h.velocity, vec3_zero, vabs_zero]
  · rw [mem_pyRange] at hi
    exact h.super i (by omega)

/-- The times. -/
theorem slices_all (tau : ℝ) (u : List ℝ) (hu : u ≠ []) (hinc : u.Pairwise (· < ·)) (dirs : List GridDir) (hd : dirs ≠ []) (h : ∀ d ∈ dirs, d.k = 1 ∧ d.alpha = tau) :
    gridSlices 1 tau u dirs = .ok (u.map (· - tau)) := by
  obtain ⟨ts, g1, g2, g3⟩ := Props.AbdTransform.gridSlices_spec 1 tau u hu dirs hd (fun d hd => by rw [(h d hd).1]; exact one_pos)
  rw [g1]
  congr 1
  have hc : (u.map fun u => (u - tau) / 1) = u.map (· - tau) := List.map_congr_left fun x _ => by simp
  rw [hc] at g2 g3
  refine g2.eq_of_length_le (List.Nodup.subperm ?_ ?_).length_le
  · refine (List.pairwise_map.mpr (hinc.imp fun {a b} hab => ?_))
    intro e
    linarith
  · intro t ht
    rw [g3 t ht]
    intro d hd'
    obtain ⟨x, hx, rfl⟩ := List.mem_map.mp ht
    rw [(h d hd').1, (h d hd').2]
    have hle := hinc.imp (fun {a b} (hab : a < b) => hab.le)
    refine ⟨?_, ?_⟩
    · have : u.head hu ≤ x := by
        cases u with
        | nil => exact absurd rfl hu
        | cons a u =>
          rcases List.mem_cons.mp hx with rfl | hx
          · exact le_rfl
          · exact (List.pairwise_cons.mp hle).1 x hx
      simpa using this
    · have : x ≤ u.getLast hu := by
        obtain ⟨n, hn, rfl⟩ := List.getElem_of_mem hx
        rw [List.getLast_eq_getElem]
        rcases Nat.lt_or_ge n (u.length - 1) with hlt | hge
        · exact (List.pairwise_iff_getElem.mp hle) n (u.length - 1) hn (by omega) hlt
        · have : n = u.length - 1 := by omega
          subst this
          exact le_rfl
      simpa using this

theorem rect_ne_nil {nt np : Nat} (h1 : 1 ≤ nt) (h2 : 1 ≤ np) : rect nt np ≠ [] := by
  intro h
  have : (rect nt np).length = nt * np := by simp [rect]
  rw [h, List.length_nil] at this
  have : 0 < nt * np := by positivity
  omega

theorem rect_length (nt np : Nat) : (rect nt np).length = nt * np := by simp [rect]

theorem conformal_ok (w : WModes) (h1 : Weights.psi0 ≤ w.dataType) (h2 : w.dataType ≤ Weights.news) : ∃ c, Weights.conformalWeight w.dataType w.rOut = .ok c := by
  have h1' : 1 ≤ w.dataType := h1
  have h2' : w.dataType ≤ 9 := h2
  generalize w.dataType = d at *
  generalize w.rOut = r at *
  have : d = 1 ∨ d = 2 ∨ d = 3 ∨ d = 4 ∨ d = 5 ∨ d = 6 ∨ d = 7 ∨ d = 8 ∨ d = 9 := by omega
  rcases this with rfl | rfl | rfl | rfl | rfl | rfl | rfl | rfl | rfl <;> cases r <;> exact ⟨_, rfl⟩

/-- On the grid: the times are shifted, and the values are those of the field in the rotated directions. -/
theorem evaluate_trivial {spline : List (ℝ × ℝ) → ℝ → ℝ} (hs : Spec.Interpolates spline) (other : Int → Option WModes) (w : WModes) (s : Int) (hw : Good w s) (r : GridResult) (tau : ℝ) (R : Quaternion ℝ)
    (h : Triv r tau R) (hn1 : 1 ≤ r.n_theta) (hn2 : 1 ≤ r.n_phi) (hL : w.ellMax ≤ r.ell_max) :
    evaluate spline other w r = .ok (WGrid.mk (w.t.map (· - tau)) w.dataType w.inertial w.rOut w.mOut r.n_theta.toNat r.n_phi.toNat
      (w.data.map fun row => (rect r.n_theta.toNat r.n_phi.toNat).map fun n => expansion s w.ellMax (rowModes w row) (R * n)) []) := by
  obtain ⟨c, hc⟩ := conformal_ok w hw.type1 hw.type2
  have hv : vabs (vec3 r.boost_velocity) = 0 := by rw [h.velocity, vec3_zero, vabs_zero]
  have hne : w.t ≠ [] := by
    intro e
    have := hw.times
    rw [e] at this
    simp at this
  have hg : (1 : ℝ) = gamma (vabs (vec3 r.boost_velocity)) := by rw [hv, gamma_zero]
  have hts : gridSlices 1 (constantFrom (r.supertranslation 0)).re w.t ((rotors r).map (direction r 1)) = .ok (w.t.map (· - tau)) := by
    rw [h.super0, constantFrom_as]
    refine slices_all tau w.t hne hw.increasing _ ?_ ?_
    · rw [h.rotors]
      simpa using rect_ne_nil (by omega) (by omega)
    · intro d hd
      obtain ⟨n, -, rfl⟩ := List.mem_map.mp hd
      exact h.direction n
  have hys : ∀ n ∈ rotors r, column other r 1 w s c n = .ok (w.data.map fun row => expansion s w.ellMax (rowModes w row) n) := by
    intro n _
    unfold column
    rw [Props.Compare.mapM_ok _ (fun p => expansion s w.ellMax (rowModes w p.1.2) n)]
    · congr 1
      refine List.ext_getElem (by simp [hw.rows]) fun i h1 h2 => ?_
      simp
    · intro p _
      unfold gridValue gridMixed
      rw [h.trivial, if_pos rfl, ok_bind, pure_eq_ok, (h.direction n).1, field_eq w s _ _ _ hw.ellMin hw.order hL]
      simp
  rw [evaluate_ok spline other w r s c hw.spin hc hw.times hw.increasing 1 hg _ hys _ hts (fun n _ => by rw [(h.direction n).1]; exact one_pos)]
  rw [h.rotors]
  congr 2
  refine List.ext_getElem (by simp [hw.rows]) fun i h1 h2 => ?_
  simp only [List.length_map] at h1 h2
  simp only [List.getElem_map]
  rw [List.map_map]
  refine List.map_congr_left fun n _ => ?_
  simp only [Function.comp]
  have hx : (w.t.map fun u => (direction r 1 (R * n)).k * (u - (direction r 1 (R * n)).alpha)) = w.t.map (· - tau) := by
    rw [(h.direction _).1, (h.direction _).2]
    simp
  rw [hx]
  have := sampled_node hs (w.t.map (· - tau)) (w.data.map fun row => expansion s w.ellMax (rowModes w row) (R * n)) (by
    rw [List.pairwise_map]
    exact hw.increasing.imp fun {a b} h => by linarith) (by simp [hw.rows]) i (by simpa using h1)
  simpa using this

theorem rotation_ok {kw : Kw} {R : Quaternion ℝ} (h : (kw.frame_rotation = none ∧ R = 1) ∨
    ∃ q : Quaternion ℝ, kw.frame_rotation = some [q.re, q.imI, q.imJ, q.imK] ∧ 3e-16 ≤ √(Quaternion.normSq q) ∧ R = (√(Quaternion.normSq q))⁻¹ • q) : rotor kw = .ok R := by
  unfold TransformKwargs.rotor
  rcases h with ⟨h, rfl⟩ | ⟨q, h, hq, rfl⟩
  · have hn : √(Quaternion.normSq (1 : Quaternion ℝ)) = 1 := by simp
    refine Eq.trans (b := if √(Quaternion.normSq (1 : Quaternion ℝ)) < 3e-16 then .error .valueError else .ok ((√(Quaternion.normSq (1 : Quaternion ℝ)))⁻¹ • 1)) (by rw [h]; rfl) ?_
    rw [hn, if_neg (by norm_num)]
    simp
  · refine Eq.trans (b := if √(Quaternion.normSq q) < 3e-16 then .error .valueError else .ok ((√(Quaternion.normSq q))⁻¹ • q)) (by rw [h]; rfl) ?_
    rw [if_neg (by simpa using hq)]

theorem process_ok {kw : Kw} {tau : ℝ} {R : Quaternion ℝ} (h : TimeAndRotation kw tau R) (L : Int) (h1 : 2 * L + 1 ≤ points kw.n_theta L) (h2 : 2 * L + 1 ≤ points kw.n_phi L) :
    ∃ r, gridProcess L kw = .ok r ∧ Triv r tau R ∧ r.n_theta = points kw.n_theta L ∧ r.n_phi = points kw.n_phi L ∧ r.ell_max = L + 1 := by
  have hr := rotation_ok h.rotation
  have hv : velocity kw = .ok [0, 0, 0] := by
    unfold velocity
    rw [h.boost]
    simp
  have hp1 : gridPoints kw.n_theta L 1 = .ok (points kw.n_theta L) := by
    unfold gridPoints
    exact if_neg (by unfold points at h1; omega)
  have hp2 : gridPoints kw.n_phi L 1 = .ok (points kw.n_phi L) := by
    unfold gridPoints
    exact if_neg (by unfold points at h2; omega)
  have ht : ∃ row, translations kw (fun _ => 0) = .ok row ∧ row 0 = constantAs tau ∧ ∀ i, i ≠ 0 → row i = 0 := by
    unfold translations stepSpacetime stepSpace stepTime
    rw [h.spacetime, h.space]
    rcases h.time with ⟨e, rfl⟩ | e
    · rw [e]
      exact ⟨_, rfl, by simp [initial, constantAs], fun i _ => rfl⟩
    · rw [e]
      refine ⟨_, rfl, by simp [putTime], fun i hi => ?_⟩
      rw [Props.TransformKwargs.putTime_row _ _ hi]
      rfl
  obtain ⟨row, ht, h3, h4⟩ := ht
  have hsup : gridSuperInput kw = .ok (1, fun _ => 0) := by
    unfold gridSuperInput
    rw [h.super]
  refine ⟨⟨row, 1, L + 1, points kw.n_theta L, points kw.n_phi L, R, [0, 0, 0]⟩, ?_, ⟨rfl, by norm_num, h3, h4, rfl⟩, rfl, rfl, rfl⟩
  unfold gridProcess
  simp only [hsup, ok_bind, ht, hp1, hp2, hr, hv, pure_eq_ok]

/-- The values on the grid that `from_modes` returns for a time translation and a rotation: at the times `t - tau`, the field of the waveform in the directions `R n`. -/
theorem from_modes_values {spline : List (ℝ × ℝ) → ℝ → ℝ} (hs : Spec.Interpolates spline) (other : Int → Option WModes) (w : WModes) (s : Int) (hw : Good w s) (kw : Kw) (tau : ℝ) (R : Quaternion ℝ)
    (h : TimeAndRotation kw tau R) (h1 : 2 * w.ellMax + 1 ≤ points kw.n_theta w.ellMax) (h2 : 2 * w.ellMax + 1 ≤ points kw.n_phi w.ellMax) :
    fromModes spline other w kw = .ok (WGrid.mk (w.t.map (· - tau)) w.dataType true w.rOut w.mOut (points kw.n_theta w.ellMax).toNat (points kw.n_phi w.ellMax).toNat
      (w.data.map fun row => (rect (points kw.n_theta w.ellMax).toNat (points kw.n_phi w.ellMax).toNat).map fun n => expansion s w.ellMax (rowModes w row) (R * n)) []) := by
  obtain ⟨r, e, ht, hn1, hn2, hl⟩ := process_ok h w.ellMax h1 h2
  have h0 := hw.ellMin
  have h0' := hw.order
  unfold fromModes
  rw [if_pos hw.inertial, e, ok_bind, evaluate_trivial hs other w s hw r tau R ht (by omega) (by omega) (by omega), hn1, hn2, hw.inertial]

theorem rowModes_mode (w : WModes) (i : Nat) (hi : i < w.data.length) (ell m : Int) (h : w.ellMin ≤ ell) : rowModes w w.data[i] ell m = Spec.mode w i ell m := by
  simp only [rowModes, if_pos h, Spec.mode, Verif.Spec.Rotation.mode, wave, List.getElem?_eq_getElem hi]

/-- `to_modes` applied to the values of functions with modes up to `K`. -/
theorem to_modes_values {map2salm : List ℂ → Nat → Nat → Int → Int → Row ℂ} (hE : Spec.Exact map2salm) (t : List ℝ) (dt : Int) (inertial rOut mOut : Bool) (nt np : Nat) (s K : Int) (c : List (Int → Int → ℂ))
    (hspin : Weights.spinWeight dt = .ok s) (hK : 0 ≤ K) (h1 : 2 * K + 1 ≤ nt) (h2 : 2 * K + 1 ≤ np) (ellMax ellMin : Option Int) (L a : Int) (hL : L = ellMax.getD (((max nt np : Nat) - 1 : Int) / 2))
    (ha : a = ellMin.getD |s|) (ha0 : 0 ≤ a) (ha1 : a ≤ L) (hLK : L ≤ K) :
    ∃ v, toModes map2salm (WGrid.mk t dt inertial rOut mOut nt np (c.map fun c => (rect nt np).map (expansion s K c)) []) ellMax ellMin = .ok v ∧
      v.t = t ∧ v.dataType = dt ∧ v.inertial = inertial ∧ v.rOut = rOut ∧ v.mOut = mOut ∧ v.ellMin = a ∧ v.ellMax = L ∧ v.frame = [] ∧ v.data.length = c.length ∧
      ∀ i (hi : i < c.length) (ell m : Int), a ≤ ell → |s| ≤ ell → ell ≤ L → -ell ≤ m → m ≤ ell → Spec.mode v i ell m = c[i] ell m := by
  refine ⟨WModes.mk t dt inertial rOut mOut a L (c.map fun c => fun i => map2salm ((rect nt np).map (expansion s K c)) nt np s L (i + lmIndex a (-a) 0)) [], ?_, rfl, rfl, rfl, rfl, rfl, rfl, rfl, rfl, by simp, ?_⟩
  · unfold toModes
    simp only [hspin, ok_bind, ← hL, ← ha]
    rw [if_neg (by omega), if_neg (by omega), if_neg, pure_eq_ok]
    · simp
    · simp [rect_length]
  · intro i hi ell m h3 h4 h5 h6 h7
    have := hE nt np s K L c[i] ell m hK h1 h2 hLK h4 h5 h6 h7
    rw [← this]
    simp only [Spec.mode, Verif.Spec.Rotation.mode, wave, List.getElem?_map, List.getElem?_eq_getElem hi, Option.map_some]
    congr 1
    unfold lmIndex
    ring

theorem rot_zero (ell : Int) (R : Quaternion ℝ) (m : Int) : Verif.Spec.Rotation.rot ell R (fun _ => 0) m = 0 := by
  unfold Verif.Spec.Rotation.rot
  exact Finset.sum_eq_zero fun _ _ => zero_mul _

/-- The rotated modes of one row, zero where there are none. -/
noncomputable def rotModes (w : WModes) (R : Quaternion ℝ) (row : Row ℂ) : Int → Int → ℂ := fun ell m => if ell ≤ w.ellMax then Verif.Spec.Rotation.rot ell R (rowModes w row ell) m else 0

theorem rotModes_mode (w : WModes) (R : Quaternion ℝ) (i : Nat) (hi : i < w.data.length) (ell m : Int) :
    rotModes w R w.data[i] ell m = if w.ellMin ≤ ell ∧ ell ≤ w.ellMax then Verif.Spec.Rotation.rot ell R (Spec.mode w i ell) m else 0 := by
  unfold rotModes
  by_cases h2 : ell ≤ w.ellMax
  · by_cases h1 : w.ellMin ≤ ell
    · rw [if_pos h2, if_pos ⟨h1, h2⟩]
      congr 1
      funext k
      exact rowModes_mode w i hi ell k h1
    · rw [if_pos h2, if_neg (by omega)]
      have : rowModes w w.data[i] ell = fun _ => 0 := by
        funext k
        exact if_neg h1
      rw [this, rot_zero]
  · rw [if_neg h2, if_neg (by omega)]

/-- **C60**: `from_modes` followed by `to_modes`, for a time translation by `tau` and a rotation by `R`, and any numbers of points that are large enough: the times are shifted by `tau`, and every mode
is that of the waveform with respect to the rotated basis. -/
theorem from_to {spline : List (ℝ × ℝ) → ℝ → ℝ} (hs : Spec.Interpolates spline) {map2salm : List ℂ → Nat → Nat → Int → Int → Row ℂ} (hE : Spec.Exact map2salm) (other : Int → Option WModes)
    (w : WModes) (s : Int) (hw : Good w s) (kw : Kw) (tau : ℝ) (R : Quaternion ℝ) (h : TimeAndRotation kw tau R) (ellMax ellMin : Option Int) (K L a : Int)
    (hL : L = ellMax.getD ((max (points kw.n_theta w.ellMax) (points kw.n_phi w.ellMax) - 1) / 2)) (ha : a = ellMin.getD |s|) (ha0 : |s| ≤ a) (ha1 : a ≤ L)
    (hK1 : L ≤ K) (hK2 : w.ellMax ≤ K) (h1 : 2 * K + 1 ≤ points kw.n_theta w.ellMax) (h2 : 2 * K + 1 ≤ points kw.n_phi w.ellMax) :
    ∃ g v, fromModes spline other w kw = .ok g ∧ toModes map2salm g ellMax ellMin = .ok v ∧ Transformed v w tau R ∧
      v.dataType = w.dataType ∧ v.inertial = true ∧ v.rOut = w.rOut ∧ v.mOut = w.mOut ∧ v.ellMin = a ∧ v.ellMax = L ∧ v.frame = [] := by
  have h0 := hw.ellMin
  have h0' := hw.order
  have e1 := from_modes_values hs other w s hw kw tau R h (by omega) (by omega)
  generalize points kw.n_theta w.ellMax = nt at *
  generalize points kw.n_phi w.ellMax = np at *
  have e2 : (w.data.map fun row => (rect nt.toNat np.toNat).map fun n => expansion s w.ellMax (rowModes w row) (R * n)) =
      (w.data.map (rotModes w R)).map fun c => (rect nt.toNat np.toNat).map (expansion s K c) := by
    rw [List.map_map]
    refine List.map_congr_left fun row _ => List.map_congr_left fun n _ => ?_
    rw [expansion_rotated, ← GridMultiply.expansion_extend s hK2]
    rfl
  rw [e2] at e1
  have has := abs_nonneg s
  obtain ⟨v, e3, v1, v2, v3, v4, v5, v6, v7, v8, v9, v10⟩ := to_modes_values hE (w.t.map (· - tau)) w.dataType true w.rOut w.mOut nt.toNat np.toNat s K (w.data.map (rotModes w R)) hw.spin (by omega) (by omega) (by omega)
    ellMax ellMin L a (by
      rw [hL]
      congr 2
      omega) ha (by omega) ha1 hK1
  refine ⟨_, v, e1, e3, ⟨v1, by simpa using v9, ?_⟩, v2, v3, v4, v5, v6, v7, v8⟩
  intro i hi ell m g1 g2 g3 g4
  rw [v6] at g1
  rw [v7] at g2
  rw [v10 i (by simpa using hi) ell m g1 (by omega) g2 g3 g4, List.getElem_map, rotModes_mode w R i hi]

/-- **C60**: the method `transform`; `L` is the largest `ell` of the result. -/
theorem transform_time_rotation {spline : List (ℝ × ℝ) → ℝ → ℝ} (hs : Spec.Interpolates spline) {map2salm : List ℂ → Nat → Nat → Int → Int → Row ℂ} (hE : Spec.Exact map2salm) (other : Int → Option WModes)
    (w : WModes) (s : Int) (hw : Good w s) (kw : Kw) (tau : ℝ) (R : Quaternion ℝ) (h : TimeAndRotation kw tau R) (ellMax : Option Int) (L : Int) (hL : L = ellMax.getD w.ellMax) (hL1 : |s| ≤ L)
    (h1 : 2 * max L w.ellMax + 1 ≤ points kw.n_theta w.ellMax) (h2 : 2 * max L w.ellMax + 1 ≤ points kw.n_phi w.ellMax) :
    ∃ v, transform spline map2salm other w ellMax kw = .ok v ∧ Transformed v w tau R ∧
      v.dataType = w.dataType ∧ v.inertial = true ∧ v.rOut = w.rOut ∧ v.mOut = w.mOut ∧ v.ellMin = |s| ∧ v.ellMax = L ∧ v.frame = [] := by
  obtain ⟨g, v, e1, e2, e3⟩ := from_to hs hE other w s hw kw tau R h (some (ellMax.getD w.ellMax)) none (max L w.ellMax) L |s| (by simpa using hL) rfl le_rfl hL1 (by omega) (by omega) h1 h2
  refine ⟨v, ?_, e3⟩
  unfold GridModes.transform
  rw [e1, ok_bind, e2]

/-- With the default options there is nothing to be checked about the numbers of points. -/
theorem transform_default {spline : List (ℝ × ℝ) → ℝ → ℝ} (hs : Spec.Interpolates spline) {map2salm : List ℂ → Nat → Nat → Int → Int → Row ℂ} (hE : Spec.Exact map2salm) (other : Int → Option WModes)
    (w : WModes) (s : Int) (hw : Good w s) (kw : Kw) (tau : ℝ) (R : Quaternion ℝ) (h : TimeAndRotation kw tau R) (h1 : kw.n_theta = none) (h2 : kw.n_phi = none) :
    ∃ v, transform spline map2salm other w none kw = .ok v ∧ Transformed v w tau R ∧
      v.dataType = w.dataType ∧ v.inertial = true ∧ v.rOut = w.rOut ∧ v.mOut = w.mOut ∧ v.ellMin = |s| ∧ v.ellMax = w.ellMax ∧ v.frame = [] :=
  transform_time_rotation hs hE other w s hw kw tau R h none w.ellMax rfl hw.ellMax (by rw [h1, max_self]; simp only [points, Option.getD_none]; omega)
    (by rw [h2, max_self]; simp only [points, Option.getD_none]; omega)

/-- **C60**: the result of a rotation is that of `rotate_decomposition_basis`, mode by mode. -/
theorem transform_is_rotation {spline : List (ℝ × ℝ) → ℝ → ℝ} (hs : Spec.Interpolates spline) {map2salm : List ℂ → Nat → Nat → Int → Int → Row ℂ} (hE : Spec.Exact map2salm) (other : Int → Option WModes)
    (w : WModes) (s : Int) (hw : Good w s) (kw : Kw) (R : Quaternion ℝ) (h : TimeAndRotation kw 0 R) (h1 : kw.n_theta = none) (h2 : kw.n_phi = none) (D tmp : Row ℂ) :
    ∃ v, transform spline map2salm other w none kw = .ok v ∧ v.t = w.t ∧ ∀ i, i < w.data.length → ∀ ell m, |s| ≤ ell → w.ellMin ≤ ell → ell ≤ w.ellMax → -ell ≤ m → m ≤ ell →
      Spec.mode v i ell m = Verif.Spec.Rotation.mode (Rotation.rotate (wave w) (.quat R) D tmp).1 i ell m := by
  obtain ⟨v, e, ⟨t1, t2, t3⟩, -, -, -, -, v1, v2, -⟩ := transform_default hs hE other w s hw kw 0 R h h1 h2
  refine ⟨v, e, by rw [t1]; simp, ?_⟩
  intro i hi ell m g1 g2 g3 g4 g5
  rw [t3 i hi ell m (by omega) (by omega) g4 g5, if_pos ⟨g2, g3⟩, (Props.Rotation.constant_rotation (wave w) hw.ellMin R D tmp).2.2.2.2 i ell m ⟨hi, g2, g3, g4, g5⟩]
  rfl

/-- **C60**: no transformation at all gives the same times and modes (those below `|s|` are dropped). -/
theorem transform_identity {spline : List (ℝ × ℝ) → ℝ → ℝ} (hs : Spec.Interpolates spline) {map2salm : List ℂ → Nat → Nat → Int → Int → Row ℂ} (hE : Spec.Exact map2salm) (other : Int → Option WModes)
    (w : WModes) (s : Int) (hw : Good w s) :
    ∃ v, transform spline map2salm other w none {} = .ok v ∧ v.t = w.t ∧ v.ellMin = |s| ∧ v.ellMax = w.ellMax ∧ v.data.length = w.data.length ∧
      ∀ i, i < w.data.length → ∀ ell m, |s| ≤ ell → w.ellMin ≤ ell → ell ≤ w.ellMax → -ell ≤ m → m ≤ ell → Spec.mode v i ell m = Spec.mode w i ell m := by
  obtain ⟨v, e, ⟨t1, t2, t3⟩, -, -, -, -, v1, v2, -⟩ := transform_default hs hE other w s hw {} 0 1 ⟨rfl, rfl, rfl, rfl, .inl ⟨rfl, rfl⟩, .inl ⟨rfl, rfl⟩⟩ rfl rfl
  refine ⟨v, e, by rw [t1]; simp, v1, v2, t2, ?_⟩
  intro i hi ell m g1 g2 g3 g4 g5
  rw [t3 i hi ell m (by omega) (by omega) g4 g5, if_pos ⟨g2, g3⟩, Verif.Rotation.rot_one ell _ m ⟨g4, g5⟩]

/-- **C60**: to the grid and back, with all defaults.  The result has one more `ell`, with modes that are zero. -/
theorem round_trip {spline : List (ℝ × ℝ) → ℝ → ℝ} (hs : Spec.Interpolates spline) {map2salm : List ℂ → Nat → Nat → Int → Int → Row ℂ} (hE : Spec.Exact map2salm) (other : Int → Option WModes)
    (w : WModes) (s : Int) (hw : Good w s) :
    ∃ g v, fromModes spline other w {} = .ok g ∧ toModes map2salm g none none = .ok v ∧ v.t = w.t ∧ v.ellMin = |s| ∧ v.ellMax = w.ellMax + 1 ∧ v.data.length = w.data.length ∧
      ∀ i, i < w.data.length → ∀ ell m, |s| ≤ ell → ell ≤ w.ellMax + 1 → -ell ≤ m → m ≤ ell →
        Spec.mode v i ell m = if w.ellMin ≤ ell ∧ ell ≤ w.ellMax then Spec.mode w i ell m else 0 := by
  have hm := hw.ellMax
  obtain ⟨g, v, e1, e2, ⟨t1, t2, t3⟩, -, -, -, -, v1, v2, -⟩ := from_to hs hE other w s hw {} 0 1 ⟨rfl, rfl, rfl, rfl, .inl ⟨rfl, rfl⟩, .inl ⟨rfl, rfl⟩⟩ none none (w.ellMax + 1) (w.ellMax + 1) |s|
    (by simp only [points, Option.getD_none]; omega) rfl le_rfl (by omega) le_rfl (by omega) (by simp only [points, Option.getD_none]; omega) (by simp only [points, Option.getD_none]; omega)
  refine ⟨g, v, e1, e2, by rw [t1]; simp, v1, v2, t2, ?_⟩
  intro i hi ell m g1 g3 g4 g5
  rw [t3 i hi ell m (by omega) (by omega) g4 g5]
  split
  · rw [Verif.Rotation.rot_one ell _ m ⟨g4, g5⟩]
  · rfl

/-- The result can be transformed again. -/
theorem Transformed.good {v w : WModes} {s : Int} {tau : ℝ} {R : Quaternion ℝ} (hw : Good w s) (h : Transformed v w tau R) (h1 : v.dataType = w.dataType) (h2 : v.inertial = true) (h3 : v.ellMin = |s|)
    (h4 : v.ellMax = w.ellMax) : Good v s where
  inertial := h2
  type1 := by rw [h1]; exact hw.type1
  type2 := by rw [h1]; exact hw.type2
  spin := by rw [h1]; exact hw.spin
  times := by rw [h.1]; simpa using hw.times
  increasing := by
    rw [h.1, List.pairwise_map]
    exact hw.increasing.imp fun {a b} h => by linarith
  rows := by rw [h.2.1, h.1, hw.rows]; simp
  ellMin := by rw [h3]; exact abs_nonneg s
  order := by rw [h3, h4]; exact hw.ellMax
  ellMax := by rw [h4]; exact hw.ellMax

/-- **C60**: one transformation after the other is the transformation by the sum of the time translations and the product of the rotations. -/
theorem transform_compose {spline : List (ℝ × ℝ) → ℝ → ℝ} (hs : Spec.Interpolates spline) {map2salm : List ℂ → Nat → Nat → Int → Int → Row ℂ} (hE : Spec.Exact map2salm) (other : Int → Option WModes)
    (w : WModes) (s : Int) (hw : Good w s) (kw1 kw2 kw3 : Kw) (tau1 tau2 : ℝ) (R1 R2 : Quaternion ℝ) (h1 : TimeAndRotation kw1 tau1 R1) (h2 : TimeAndRotation kw2 tau2 R2)
    (h3 : TimeAndRotation kw3 (tau1 + tau2) (R1 * R2)) (n1 : kw1.n_theta = none ∧ kw1.n_phi = none) (n2 : kw2.n_theta = none ∧ kw2.n_phi = none) (n3 : kw3.n_theta = none ∧ kw3.n_phi = none) :
    ∃ v u x, transform spline map2salm other w none kw1 = .ok v ∧ transform spline map2salm other v none kw2 = .ok u ∧ transform spline map2salm other w none kw3 = .ok x ∧
      u.t = x.t ∧ u.ellMin = x.ellMin ∧ u.ellMax = x.ellMax ∧ u.data.length = x.data.length ∧
      ∀ i, i < w.data.length → ∀ ell m, x.ellMin ≤ ell → ell ≤ x.ellMax → -ell ≤ m → m ≤ ell → Spec.mode u i ell m = Spec.mode x i ell m := by
  obtain ⟨v, e1, t1, v1, v2, -, -, v3, v4, -⟩ := transform_default hs hE other w s hw kw1 tau1 R1 h1 n1.1 n1.2
  obtain ⟨u, e2, t2, u1, u2, -, -, u3, u4, -⟩ := transform_default hs hE other v s (Transformed.good hw t1 v1 v2 v3 v4) kw2 tau2 R2 h2 n2.1 n2.2
  obtain ⟨x, e3, t3, x1, x2, -, -, x3, x4, -⟩ := transform_default hs hE other w s hw kw3 _ _ h3 n3.1 n3.2
  refine ⟨v, u, x, e1, e2, e3, ?_, by rw [u3, x3], by rw [u4, v4, x4], by rw [t2.2.1, t1.2.1, t3.2.1], ?_⟩
  · rw [t2.1, t1.1, t3.1, List.map_map]
    refine List.map_congr_left fun a _ => ?_
    simp only [Function.comp]
    ring
  · intro i hi ell m g1 g2 g3 g4
    rw [x3] at g1
    rw [x4] at g2
    rw [t2.2.2 i (by rw [t1.2.1]; exact hi) ell m (by omega) (by omega) g3 g4, if_pos ⟨by omega, by omega⟩, t3.2.2 i hi ell m (by omega) (by omega) g3 g4]
    rw [Verif.Rotation.rot_congr ell R2 _ (fun k => if w.ellMin ≤ ell ∧ ell ≤ w.ellMax then Verif.Spec.Rotation.rot ell R1 (Spec.mode w i ell) k else 0) m
      (fun k hk => t1.2.2 i hi ell k (by omega) (by omega) hk.1 hk.2)]
    by_cases hc : w.ellMin ≤ ell ∧ ell ≤ w.ellMax
    · simp only [if_pos hc]
      exact Verif.Rotation.rot_rot ell R1 R2 _ m ⟨g3, g4⟩
    · simp only [if_neg hc]
      exact rot_zero _ _ _

/-! ## Refusals and losses -/

/-- A waveform in a frame of another type is refused. -/
theorem not_inertial (spline : List (ℝ × ℝ) → ℝ → ℝ) (map2salm : List ℂ → Nat → Nat → Int → Int → Row ℂ) (other : Int → Option WModes) (w : WModes) (h : w.inertial = false) (ellMax : Option Int) (kw : Kw) :
    fromModes spline other w kw = .error .valueError ∧ transform spline map2salm other w ellMax kw = .error .valueError := by
  have : fromModes spline other w kw = .error .valueError := by
    unfold fromModes
    rw [h]
    rfl
  refine ⟨this, ?_⟩
  unfold GridModes.transform
  rw [this]
  rfl

/-- The stored frame does not matter, and the result has none: the orientation of a waveform that was rotated by `rotate_decomposition_basis` (which leaves the type of the frame as it is) is lost. -/
theorem frame_ignored (spline : List (ℝ × ℝ) → ℝ → ℝ) (map2salm : List ℂ → Nat → Nat → Int → Int → Row ℂ) (other : Int → Option WModes) (w : WModes) (F : List (Quaternion ℝ)) (ellMax : Option Int) (kw : Kw) :
    transform spline map2salm other { w with frame := F } ellMax kw = transform spline map2salm other w ellMax kw ∧
    ∀ v, transform spline map2salm other w ellMax kw = .ok v → v.frame = [] := by
  refine ⟨rfl, ?_⟩
  intro v h
  unfold GridModes.transform at h
  cases hg : fromModes spline other w kw with
  | error e =>
    rw [hg] at h
    cases h
  | ok g =>
    rw [hg, ok_bind] at h
    unfold toModes at h
    cases hsp : Weights.spinWeight g.dataType with
    | error e =>
      rw [hsp] at h
      cases h
    | ok s =>
      simp only [hsp, ok_bind] at h
      split at h
      · cases h
      · split at h
        · cases h
        · split at h
          · cases h
          · cases h
            rfl

/-- Too few points are refused. -/
theorem too_few_points (spline : List (ℝ × ℝ) → ℝ → ℝ) (other : Int → Option WModes) (w : WModes) (kw : Kw) (n : Int) (h : kw.n_theta = some n) (hn : n < 2 * w.ellMax + 1) :
    ∀ g, fromModes spline other w kw ≠ .ok g := by
  intro g hg
  unfold fromModes at hg
  split at hg
  · unfold gridProcess at hg
    cases h1 : gridSuperInput kw with
    | error e =>
      rw [h1] at hg
      cases hg
    | ok p =>
      simp only [h1, ok_bind] at hg
      cases h2 : translations kw p.2 with
      | error e =>
        rw [h2] at hg
        cases hg
      | ok row =>
        have h3 : gridPoints kw.n_theta w.ellMax p.1 = .error .valueError := by
          unfold gridPoints
          rw [h]
          exact if_pos hn
        simp only [h2, ok_bind, h3] at hg
        cases hg
  · cases hg

/-! ## An example -/

/-- A waveform with the data type `h`, modes from `ell = 2` to `3`, at the times 0, 1, 2, 3. -/
noncomputable def sample : WModes :=
  { t := [0, 1, 2, 3], dataType := Weights.h, inertial := true, rOut := true, mOut := true, ellMin := 2, ellMax := 3, data := [fun i => i, fun i => 2 * i, fun i => Complex.I * i, fun i => i ^ 2], frame := [] }

theorem sample_good : Good sample (-2) where
  inertial := rfl
  type1 := by decide
  type2 := by decide
  spin := rfl
  times := by simp [sample]
  increasing := by simp [sample]; norm_num
  rows := rfl
  ellMin := by decide
  order := by decide
  ellMax := by decide

/-- A time translation by 5 and a rotation by a half turn about x, both not trivial. -/
example : TimeAndRotation { time_translation := some (some 5), frame_rotation := some [0, 1, 0, 0] } 5 (⟨0, 1, 0, 0⟩ : Quaternion ℝ) where
  super := rfl
  spacetime := rfl
  space := rfl
  boost := rfl
  time := .inr rfl
  rotation := by
    have : √(Quaternion.normSq (⟨0, 1, 0, 0⟩ : Quaternion ℝ)) = 1 := by
      rw [show Quaternion.normSq (⟨0, 1, 0, 0⟩ : Quaternion ℝ) = 1 from (Quaternion.normSq_def' _).trans (by norm_num), Real.sqrt_one]
    refine .inr ⟨(⟨0, 1, 0, 0⟩ : Quaternion ℝ), rfl, ?_, ?_⟩
    · rw [this]
      norm_num
    · rw [this, inv_one]
      exact (one_smul ℝ _).symm

end Verif.Props.GridModes
