import Verif.Model.BoostFlux
import Verif.Spec.Boost
import Verif.Props.FluxIntegral
import Verif.Props.Ladder
import Verif.Props.Compare

/-!
# The matrix elements in the boost flux
-/

namespace Verif.BoostFlux
open Real Verif.Wigner Verif.Flux Verif.Modes Verif.Slicing Verif.Spec.Slicing ComplexConjugate Verif.GridMultiply Verif.Sphere Verif.Spec.Sphere Verif.Spec.Boost Verif.Spec.Flux
open Finset (Icc)

/-- Matrix elements that are those of a harmonic of degree 1. -/
theorem bracket_Y (s b s' a0 b0 q : Int) (c : ℂ) (f g : Int → Int → ℂ) (M : Int → Int → Int → Int → ℂ) (h0 : 0 ≤ a0) (hs : s' + b = s) (hq : q = 1 ∨ q = 0 ∨ q = -1) (hb : b = 1 ∨ b = 0 ∨ b = -1)
    (hM : ∀ j n l m, a0 ≤ j → j ≤ b0 → -j ≤ n → n ≤ j → a0 ≤ l → l ≤ b0 → -l ≤ m → m ≤ l → M j n l m = if n = m + q then c * (gaunt b s' l m q j : ℂ) else 0) :
    bracket a0 b0 f M g = sphere (fun R => conj (fieldR s a0 b0 f R) * (c * Y b 1 q R * fieldR s' a0 b0 g R)) := by
  have e := field_bracket s s' a0 b0 f g (fun R => c * Y b 1 q R) (Cont.smul _ (Y_cont b 1 q (by omega) (by omega))) M (by
    intro j n l m h1 h2 h3 h4 h5 h6 h7 h8
    have t := triple s j n b s' l m q hs h3 h4 (by omega) h7 h8 hq hb
    have e : (fun R => conj (Y s j n R) * (c * Y b 1 q R * Y s' l m R)) = fun R => c * (conj (Y s j n R) * (Y b 1 q R * Y s' l m R)) := by
      funext R
      ring
    rw [e, sphere_smul, t, hM j n l m h1 h2 h3 h4 h5 h6 h7 h8]
    split <;> simp)
  exact e.symm

/-- The constant with which the harmonic `Y_1q` is `cos θ`, `sin θ exp(± i φ)`. -/
noncomputable def cq (q : Int) : ℝ := if q = 0 then √(4 * π / 3) else -q * √(8 * π / 3)

theorem cq_pm {q : Int} (hq : q = 1 ∨ q = -1) : cq q = -q * (√2 * √(4 * π / 3)) := by
  unfold cq
  rw [if_neg (by omega), Props.FluxIntegral.sqrt8]

theorem gaunt_far {b s l m q j : Int} (h : j < l - 1 ∨ l + 1 < j) : gaunt b s l m q j = 0 := by
  unfold gaunt
  rw [cg_far h]
  ring

theorem root_gaunt (b s l m q j : Int) (hl : 0 ≤ l) (hj : 0 ≤ j) : √(4 * π / 3) * gaunt b s l m q j = √((2 * l + 1) / (2 * j + 1) : ℝ) * cg l m q j * cg l (-s) (-b) j := by
  have hl' : (0 : ℝ) ≤ l := by exact_mod_cast hl
  have hj' : (0 : ℝ) ≤ j := by exact_mod_cast hj
  rw [gaunt_split _ _ _ _ _ _ hl hj, Real.sqrt_div (show (0 : ℝ) ≤ 2 * l + 1 by positivity)]
  have := Verif.Sphere.sqrt_inv
  linear_combination (√(2 * l + 1 : ℝ) / √(2 * j + 1 : ℝ) * cg l m q j * cg l (-s) (-b) j) * this

theorem el_pZ (s a0 b0 j n l m : Int) (h0 : 0 ≤ a0) (hj : a0 ≤ j ∧ j ≤ b0) (hn : -j ≤ n ∧ n ≤ j) (hl : a0 ≤ l ∧ l ≤ b0) (hm : -l ≤ m ∧ m ≤ l) :
    matEl (pZ s a0 b0) j n l m = if n = m + 0 then ((cq 0 : ℝ) : ℂ) * (gaunt 0 s l m 0 j : ℂ) else 0 := by
  rw [matEl_pZ s a0 b0 j n l m hj hn hl hm, add_zero]
  unfold cq
  rw [if_pos rfl, ← Props.FluxIntegral.gaunt_el s l m 0 j (by omega) (by omega)]
  push_cast
  rfl

theorem el_pPM (q s a0 b0 j n l m : Int) (hq : q = 1 ∨ q = -1) (h0 : 0 ≤ a0) (hj : a0 ≤ j ∧ j ≤ b0) (hn : -j ≤ n ∧ n ≤ j) (hl : a0 ≤ l ∧ l ≤ b0) (hm : -l ≤ m ∧ m ≤ l) :
    matEl (pPM q s a0 b0) j n l m = if n = m + q then ((cq q : ℝ) : ℂ) * (gaunt 0 s l m q j : ℂ) else 0 := by
  rw [matEl_pPM q s a0 b0 j n l m hj hn hl hm]
  rw [cq_pm hq, ← Props.FluxIntegral.gaunt_el s l m q j (by omega) (by omega)]
  split
  · push_cast; ring
  · rfl

theorem loop_el (a0 b0 q : Int) (val : Int → Int → Int → ℂ) (j n l m : Int) (G : ℂ) (hj : a0 ≤ j ∧ j ≤ b0) (hn : -j ≤ n ∧ n ≤ j) (hl : a0 ≤ l ∧ l ≤ b0) (hm : -l ≤ m ∧ m ≤ l)
    (hval : val l j m = G) (hfar : j < l - 1 ∨ l + 1 < j → G = 0) :
    matEl (ellLoop a0 b0 fun ell ellp m => if m + q < -ellp ∨ m + q > ellp then none else some ⟨ellp, m + q, ell, m, val ell ellp m⟩) j n l m = if n = m + q then G else 0 := by
  rw [matEl_ellLoop]
  by_cases hq : n = m + q
  · rw [if_pos hq]
    by_cases hd : l - 1 ≤ j ∧ j ≤ l + 1
    · rw [if_pos ⟨hl, ⟨hj.1, hj.2, hd⟩, hm, hn, hq⟩, hval]
    · rw [if_neg (fun h => hd h.2.1.2.2), hfar (by omega)]
  · rw [if_neg hq, if_neg (fun h => hq h.2.2.2.2)]

theorem el_ethChiZ (s a0 b0 j n l m : Int) (h0 : 0 ≤ a0) (hj : a0 ≤ j ∧ j ≤ b0) (hn : -j ≤ n ∧ n ≤ j) (hl : a0 ≤ l ∧ l ≤ b0) (hm : -l ≤ m ∧ m ≤ l) :
    matEl (ethChiZ s a0 b0) j n l m = if n = m + 0 then ((√2 * cq 0 : ℝ) : ℂ) * (gaunt 1 s l m 0 j : ℂ) else 0 := by
  have e := loop_el a0 b0 0 (fun ell ellp m => ((√((2 * ell + 1) / (2 * ellp + 1)) * (√2 * cg ell m 0 ellp) * cg ell (-s) (-1) ellp : ℝ) : ℂ)) j n l m
    (((√2 * cq 0 : ℝ) : ℂ) * (gaunt 1 s l m 0 j : ℂ)) hj hn hl hm (by
      have := root_gaunt 1 s l m 0 j (by omega) (by omega)
      unfold cq
      rw [if_pos rfl, ← Complex.ofReal_mul]
      congr 1
      linear_combination -√2 * this) (fun h => by rw [gaunt_far h]; simp)
  rw [← e]
  unfold ethChiZ
  simp only [add_zero]

theorem el_ethbarChiZ (s a0 b0 j n l m : Int) (h0 : 0 ≤ a0) (hj : a0 ≤ j ∧ j ≤ b0) (hn : -j ≤ n ∧ n ≤ j) (hl : a0 ≤ l ∧ l ≤ b0) (hm : -l ≤ m ∧ m ≤ l) :
    matEl (ethbarChiZ s a0 b0) j n l m = if n = m + 0 then ((√2 * cq 0 : ℝ) : ℂ) * (gaunt (-1) (s + 1) l m 0 j : ℂ) else 0 := by
  have e := loop_el a0 b0 0 (fun ell ellp m => ((√((2 * ell + 1) / (2 * ellp + 1)) * (√2 * cg ell m 0 ellp) * cg ell (-s - 1) 1 ellp : ℝ) : ℂ)) j n l m
    (((√2 * cq 0 : ℝ) : ℂ) * (gaunt (-1) (s + 1) l m 0 j : ℂ)) hj hn hl hm (by
      have := root_gaunt (-1) (s + 1) l m 0 j (by omega) (by omega)
      rw [show -(s + 1) = -s - 1 by ring, show (-(-1) : Int) = 1 by norm_num] at this
      unfold cq
      rw [if_pos rfl, ← Complex.ofReal_mul]
      congr 1
      linear_combination -√2 * this) (fun h => by rw [gaunt_far h]; simp)
  rw [← e]
  unfold ethbarChiZ
  simp only [add_zero]

theorem root_split (l j : Int) (hl : 0 ≤ l) (hj : 0 ≤ j) : √(8 * π / 3) * √((2 * 1 + 1) * (2 * l + 1) / (4 * π * (2 * j + 1))) = √2 * √((2 * l + 1) / (2 * j + 1) : ℝ) := by
  have hl' : (0 : ℝ) ≤ l := by exact_mod_cast hl
  have hj' : (0 : ℝ) ≤ j := by exact_mod_cast hj
  rw [← Real.sqrt_mul (by positivity), ← Real.sqrt_mul (by norm_num)]
  congr 1
  have := Real.pi_pos
  field_simp
  ring

theorem el_ethChiPM (q s a0 b0 j n l m : Int) (hq : q = 1 ∨ q = -1) (h0 : 0 ≤ a0) (hj : a0 ≤ j ∧ j ≤ b0) (hn : -j ≤ n ∧ n ≤ j) (hl : a0 ≤ l ∧ l ≤ b0) (hm : -l ≤ m ∧ m ≤ l) :
    matEl (ethChiPM q s a0 b0) j n l m = if n = m + q then ((√2 * cq q : ℝ) : ℂ) * (gaunt 1 s l m q j : ℂ) else 0 := by
  refine loop_el a0 b0 q (fun ell ellp m => ((-1 * q * √(8 * π / 3) * matElEthChi s ellp q ell m : ℝ) : ℂ)) j n l m _ hj hn hl hm ?_ (fun h => by rw [gaunt_far h]; simp)
  have h1 := root_gaunt 1 s l m q j (by omega) (by omega)
  have h2 := sign_sq (l + 1 - j)
  have h3 := root_split l j (by omega) (by omega)
  unfold matElEthChi cg'
  rw [Props.FluxIntegral.sqrt8] at h3
  rw [cq_pm hq, ← Complex.ofReal_mul, Props.FluxIntegral.sqrt8]
  congr 1
  generalize (if (l + 1 - j) % 2 = 0 then (1 : ℝ) else -1) = σ at *
  generalize √((2 * 1 + 1) * (2 * (l : ℝ) + 1) / (4 * π * (2 * (j : ℝ) + 1))) = r at *
  generalize gaunt 1 s l m q j = G at *
  generalize cg l m q j = x at *
  generalize cg l (-s) (-1) j = y at *
  linear_combination (-q * √2 * x * y * σ * σ) * h3 + (-q * √2 * √2 * √((2 * l + 1) / (2 * j + 1) : ℝ) * x * y) * h2 + (q * √2 * √2) * h1

theorem el_ethbarChiPM (q s a0 b0 j n l m : Int) (hq : q = 1 ∨ q = -1) (h0 : 0 ≤ a0) (hj : a0 ≤ j ∧ j ≤ b0) (hn : -j ≤ n ∧ n ≤ j) (hl : a0 ≤ l ∧ l ≤ b0) (hm : -l ≤ m ∧ m ≤ l) :
    matEl (ethbarChiPM q s a0 b0) j n l m = if n = m + q then ((√2 * cq q : ℝ) : ℂ) * (gaunt (-1) (s + 1) l m q j : ℂ) else 0 := by
  refine loop_el a0 b0 q (fun ell ellp m => ((-1 * q * √(8 * π / 3) * matElEthbarChi s ellp q ell m : ℝ) : ℂ)) j n l m _ hj hn hl hm ?_ (fun h => by rw [gaunt_far h]; simp)
  have h1 := root_gaunt (-1) (s + 1) l m q j (by omega) (by omega)
  rw [show -(s + 1) = -1 - s by ring, show (-(-1) : Int) = 1 by norm_num] at h1
  have h2 := sign_sq (l + 1 - j)
  have h3 := root_split l j (by omega) (by omega)
  unfold matElEthbarChi cg'
  rw [Props.FluxIntegral.sqrt8] at h3
  rw [cq_pm hq, ← Complex.ofReal_mul, Props.FluxIntegral.sqrt8]
  congr 1
  generalize (if (l + 1 - j) % 2 = 0 then (1 : ℝ) else -1) = σ at *
  generalize √((2 * 1 + 1) * (2 * (l : ℝ) + 1) / (4 * π * (2 * (j : ℝ) + 1))) = r at *
  generalize gaunt (-1) (s + 1) l m q j = G at *
  generalize cg l m q j = x at *
  generalize cg l (-1 - s) 1 j = y at *
  linear_combination (-q * √2 * x * y * σ * σ) * h3 + (-q * √2 * √2 * √((2 * l + 1) / (2 * j + 1) : ℝ) * x * y) * h2 + (q * √2 * √2) * h1

/-! ## The waveforms with raised and lowered spin weight -/

theorem single_eth_eq (s l : Int) (hl : 0 ≤ l) : Verif.Spec.Ladder.single s l .eth = √(((l : ℝ) - s) * (l + s + 1)) := by
  by_cases h : |s| ≤ l
  · exact if_pos h
  · refine (if_neg h).trans (Real.sqrt_eq_zero_of_nonpos ?_).symm
    rw [not_le] at h
    have : (l - s) * (l + s + 1) ≤ 0 := by
      rcases abs_cases s with ⟨e, _⟩ | ⟨e, _⟩
      · rw [e] at h
        exact mul_nonpos_of_nonpos_of_nonneg (by omega) (by omega)
      · rw [e] at h
        exact mul_nonpos_of_nonneg_of_nonpos (by omega) (by omega)
    exact_mod_cast this

theorem single_ethbar_eq (s l : Int) (hl : 0 ≤ l) : Verif.Spec.Ladder.single s l .ethbar = -√(((l : ℝ) + s) * (l - s + 1)) := by
  by_cases h : |s| ≤ l
  · exact if_pos h
  · refine (if_neg h).trans ?_
    rw [Real.sqrt_eq_zero_of_nonpos, neg_zero]
    rw [not_le] at h
    have : (l + s) * (l - s + 1) ≤ 0 := by
      rcases abs_cases s with ⟨e, _⟩ | ⟨e, _⟩
      · rw [e] at h
        exact mul_nonpos_of_nonneg_of_nonpos (by omega) (by omega)
      · rw [e] at h
        exact mul_nonpos_of_nonpos_of_nonneg (by omega) (by omega)
    exact_mod_cast this

/-- `withEth`. -/
theorem withEth_spec (op : Char) (o : Verif.Spec.Ladder.Op) (hop : [op] ∈ o.spellings) (a : Modes) (hv : Valid a.w) :
    ∃ A, withEth op a = .ok A ∧ A.spin = a.spin ∧ A.w.t = a.w.t ∧ A.w.ellMin = a.w.ellMin ∧ A.w.ellMax = a.w.ellMax ∧ A.w.nCols = a.w.nCols ∧ Valid A.w ∧
      ∀ k ell m, a.w.ellMin ≤ ell → ell ≤ a.w.ellMax → -ell ≤ m → m ≤ ell → Verif.Spec.Flux.modesOf A.w k ell m = (Verif.Spec.Ladder.single a.spin ell o : ℂ) * Verif.Spec.Flux.modesOf a.w k ell m := by
  have hf : ∀ ell, Verif.Ladder.ladderFactor (.string [op]) a.spin ell "NP" = .ok (Verif.Spec.Ladder.single a.spin ell o) := by
    intro ell
    have := Props.Ladder.ladder_factor_string_NP [op] [o] a.spin ell (Verif.Spec.Ladder.Spells.cons [op] [] o [] hop Verif.Spec.Ladder.Spells.nil)
    rw [this]
    show Except.ok (Verif.Spec.Ladder.single _ _ _ * 1) = _
    rw [mul_one]
    rfl
  have hrow := fun r : List ℂ => Props.Ladder.apply_eth_spec (.string [op]) a.spin a.w.ellMin a.w.ellMax "NP" (fun i => r.getD i.toNat 0) _ hf
  choose out h1 h2 using hrow
  have hmap : (a.w.data.mapM fun r => do
      let row ← Verif.Ladder.applyEth (.string [op]) a.spin a.w.ellMin a.w.ellMax "NP" (fun i => r.getD i.toNat 0)
      pure ((List.range r.length).map fun i : Nat => row i)) = (.ok (a.w.data.map fun r => (List.range r.length).map fun i : Nat => out r i) : Py _) := by
    refine Props.Compare.mapM_ok _ _ _ fun r _ => ?_
    rw [h1 r]
    rfl
  refine ⟨⟨a.spin, { a.w with data := a.w.data.map fun r => (List.range r.length).map fun i : Nat => out r i }⟩, ?_, rfl, rfl, rfl, rfl, rfl, ?_, ?_⟩
  · unfold withEth
    rw [hmap]
    rfl
  · refine ⟨hv.frame, ?_, ?_, hv.min, hv.max, hv.modes⟩
    · show (List.map _ _).length = _
      rw [List.length_map, hv.rows]
    · intro r hr
      obtain ⟨r', hr', rfl⟩ := List.mem_map.1 hr
      simp [hv.cols r' hr']
  · intro k ell m g1 g2 g3 g4
    have hpos := Verif.Flux.lmIndex_nonneg hv.min g1 g3
    have hlt : Verif.Modes.lmIndex ell m a.w.ellMin < (a.w.nCols : Int) := by
      have := (Verif.Modes.lmIndex_block a.w.ellMin (And.intro g3 g4)).2
      have h5 := hv.min
      rw [hv.modes]
      nlinarith
    unfold Verif.Spec.Flux.modesOf modeAt
    simp only [List.getElem?_map]
    cases hk : a.w.data[k]? with
    | none => simp
    | some r =>
      have hr : r.length = a.w.nCols := hv.cols r (List.mem_of_getElem? hk)
      have e := h2 r ell m g1 g2 (abs_le.2 ⟨g3, g4⟩)
      simp only [Option.map_some, Option.bind_some]
      rw [List.getElem?_eq_getElem (show (lmIndex ell m a.w.ellMin).toNat < r.length by omega), List.getElem?_eq_getElem (by simp; omega)]
      simp only [List.getElem_range, List.getElem_map, Option.getD_some]
      have hi : ((lmIndex ell m a.w.ellMin).toNat : Int) = lmIndex ell m a.w.ellMin := by omega
      rw [hi, e, List.getD_eq_getElem?_getD, List.getElem?_eq_getElem (show (lmIndex ell m a.w.ellMin).toNat < r.length by omega), Option.getD_some]
      ring

theorem eth_modes (a : Modes) (hv : Valid a.w) :
    ∃ A, withEth '+' a = .ok A ∧ A.spin = a.spin ∧ A.w.t = a.w.t ∧ A.w.ellMin = a.w.ellMin ∧ A.w.ellMax = a.w.ellMax ∧ A.w.nCols = a.w.nCols ∧ Valid A.w ∧
      ∀ k ell m, a.w.ellMin ≤ ell → ell ≤ a.w.ellMax → -ell ≤ m → m ≤ ell → Verif.Spec.Flux.modesOf A.w k ell m = eth a.spin (Verif.Spec.Flux.modesOf a.w k) ell m := by
  obtain ⟨A, h1, h2, h3, h4, h5, h6, h7, h8⟩ := withEth_spec '+' .eth (by decide) a hv
  refine ⟨A, h1, h2, h3, h4, h5, h6, h7, fun k ell m g1 g2 g3 g4 => ?_⟩
  have := hv.min
  rw [h8 k ell m g1 g2 g3 g4, single_eth_eq _ _ (by omega)]
  rfl

theorem ethbar_modes (a : Modes) (hv : Valid a.w) :
    ∃ A, withEth '-' a = .ok A ∧ A.spin = a.spin ∧ A.w.t = a.w.t ∧ A.w.ellMin = a.w.ellMin ∧ A.w.ellMax = a.w.ellMax ∧ A.w.nCols = a.w.nCols ∧ Valid A.w ∧
      ∀ k ell m, a.w.ellMin ≤ ell → ell ≤ a.w.ellMax → -ell ≤ m → m ≤ ell → Verif.Spec.Flux.modesOf A.w k ell m = ethbar a.spin (Verif.Spec.Flux.modesOf a.w k) ell m := by
  obtain ⟨A, h1, h2, h3, h4, h5, h6, h7, h8⟩ := withEth_spec '-' .ethbar (by decide) a hv
  refine ⟨A, h1, h2, h3, h4, h5, h6, h7, fun k ell m g1 g2 g3 g4 => ?_⟩
  have := hv.min
  rw [h8 k ell m g1 g2 g3 g4, single_ethbar_eq _ _ (by omega)]
  push_cast
  rfl

/-! ## The sum as one integral -/

/-- `∫ conj(f) K g dΩ`. -/
noncomputable def S (f K g : Quaternion ℝ → ℂ) : ℂ := sphere fun R => conj (f R) * K R * g R

/-- The integral with three functions in place of `χ`, `ðχ`, `ð̄χ`. -/
noncomputable def form (a b : Int) (u : ℝ) (h N : Int → Int → ℂ) (X X1 Xm : Quaternion ℝ → ℂ) : ℂ :=
  1 / 8 * (S (fieldR (-3) a b (ethbar (-2) N)) X (fieldR (-3) a b (ethbar (-2) h)) - S (fieldR (-1) a b (eth (-2) N)) X (fieldR (-1) a b (eth (-2) h))
      + S (fieldR (-3) a b (ethbar (-2) h)) X (fieldR (-3) a b (ethbar (-2) N)) - S (fieldR (-1) a b (eth (-2) h)) X (fieldR (-1) a b (eth (-2) N))
      + 6 * S (fieldR (-2) a b N) X (fieldR (-2) a b h) + 6 * S (fieldR (-2) a b h) X (fieldR (-2) a b N))
    - 1 / 4 * (S (fieldR (-1) a b (eth (-2) N)) X1 (fieldR (-2) a b h) + S (fieldR (-2) a b h) Xm (fieldR (-1) a b (eth (-2) N)))
    - u / 2 * S (fieldR (-2) a b N) X (fieldR (-2) a b N)

theorem S_cont {f K g : Quaternion ℝ → ℂ} (hf : Cont f) (hK : Cont K) (hg : Cont g) : Cont fun R => conj (f R) * K R * g R := ((Cont.conj hf).mul hK).mul hg

theorem S_add {f K K' g : Quaternion ℝ → ℂ} (hf : Cont f) (hK : Cont K) (hK' : Cont K') (hg : Cont g) : S f (fun R => K R + K' R) g = S f K g + S f K' g := by
  unfold S
  rw [← sphere_add (S_cont hf hK hg) (S_cont hf hK' hg)]
  congr 1
  funext R
  ring

theorem S_smul (c : ℂ) (f K g : Quaternion ℝ → ℂ) : S f (fun R => c * K R) g = c * S f K g := by
  unfold S
  rw [← sphere_smul]
  congr 1
  funext R
  ring

theorem form_add (a b : Int) (u : ℝ) (h N : Int → Int → ℂ) {X X1 Xm Z Z1 Zm : Quaternion ℝ → ℂ} (c1 : Cont X) (c2 : Cont X1) (c3 : Cont Xm) (c4 : Cont Z) (c5 : Cont Z1) (c6 : Cont Zm) :
    form a b u h N (fun R => X R + Z R) (fun R => X1 R + Z1 R) (fun R => Xm R + Zm R) = form a b u h N X X1 Xm + form a b u h N Z Z1 Zm := by
  unfold form
  rw [S_add (fieldR_cont _ _ _ _) c1 c4 (fieldR_cont _ _ _ _), S_add (fieldR_cont _ _ _ _) c1 c4 (fieldR_cont _ _ _ _), S_add (fieldR_cont _ _ _ _) c1 c4 (fieldR_cont _ _ _ _),
    S_add (fieldR_cont _ _ _ _) c1 c4 (fieldR_cont _ _ _ _), S_add (fieldR_cont _ _ _ _) c1 c4 (fieldR_cont _ _ _ _), S_add (fieldR_cont _ _ _ _) c1 c4 (fieldR_cont _ _ _ _),
    S_add (fieldR_cont _ _ _ _) c1 c4 (fieldR_cont _ _ _ _), S_add (fieldR_cont _ _ _ _) c2 c5 (fieldR_cont _ _ _ _), S_add (fieldR_cont _ _ _ _) c3 c6 (fieldR_cont _ _ _ _)]
  ring

theorem form_smul (a b : Int) (u : ℝ) (h N : Int → Int → ℂ) (c : ℂ) (X X1 Xm : Quaternion ℝ → ℂ) :
    form a b u h N (fun R => c * X R) (fun R => c * X1 R) (fun R => c * Xm R) = c * form a b u h N X X1 Xm := by
  unfold form
  simp only [S_smul]
  ring

/-- The integral is that of the integrand. -/
theorem form_integrand (a b : Int) (χ : Int → Int → ℂ) (u : ℝ) (h N : Int → Int → ℂ) :
    form a b u h N (fieldR 0 1 1 χ) (fieldR 1 1 1 (eth 0 χ)) (fieldR (-1) 1 1 (ethbar 0 χ)) = solid (integrand a b χ u h N) := by
  have c := fun s f => fieldR_cont s a b f
  have d := fun s f => fieldR_cont s 1 1 f
  have e : solid (integrand a b χ u h N) = sphere (fun R =>
      (((((((1 / 8 * (conj (fieldR (-3) a b (ethbar (-2) N) R) * fieldR 0 1 1 χ R * fieldR (-3) a b (ethbar (-2) h) R)
      + -1 / 8 * (conj (fieldR (-1) a b (eth (-2) N) R) * fieldR 0 1 1 χ R * fieldR (-1) a b (eth (-2) h) R))
      + 1 / 8 * (conj (fieldR (-3) a b (ethbar (-2) h) R) * fieldR 0 1 1 χ R * fieldR (-3) a b (ethbar (-2) N) R))
      + -1 / 8 * (conj (fieldR (-1) a b (eth (-2) h) R) * fieldR 0 1 1 χ R * fieldR (-1) a b (eth (-2) N) R))
      + 6 / 8 * (conj (fieldR (-2) a b N R) * fieldR 0 1 1 χ R * fieldR (-2) a b h R))
      + 6 / 8 * (conj (fieldR (-2) a b h R) * fieldR 0 1 1 χ R * fieldR (-2) a b N R))
      + -1 / 4 * (conj (fieldR (-1) a b (eth (-2) N) R) * fieldR 1 1 1 (eth 0 χ) R * fieldR (-2) a b h R))
      + -1 / 4 * (conj (fieldR (-2) a b h R) * fieldR (-1) 1 1 (ethbar 0 χ) R * fieldR (-1) a b (eth (-2) N) R))
      + -u / 2 * (conj (fieldR (-2) a b N R) * fieldR 0 1 1 χ R * fieldR (-2) a b N R)) := by
    unfold sphere
    congr 1
    funext θ φ
    unfold integrand
    simp only [Props.FluxIntegral.field_fieldR]
    ring
  have t := fun (k : ℂ) s s' s'' f χ g => (S_cont (c s f) (d s' χ) (c s'' g)).smul k
  rw [e, sphere_add _ (t _ _ _ _ _ _ _), sphere_add _ (t _ _ _ _ _ _ _), sphere_add _ (t _ _ _ _ _ _ _), sphere_add _ (t _ _ _ _ _ _ _), sphere_add _ (t _ _ _ _ _ _ _),
    sphere_add _ (t _ _ _ _ _ _ _), sphere_add _ (t _ _ _ _ _ _ _), sphere_add (t _ _ _ _ _ _ _) (t _ _ _ _ _ _ _)]
  · simp only [sphere_smul]
    unfold form S
    ring
  · exact ((t _ _ _ _ _ _ _).add (t _ _ _ _ _ _ _))
  · exact ((t _ _ _ _ _ _ _).add (t _ _ _ _ _ _ _)).add (t _ _ _ _ _ _ _)
  · exact (((t _ _ _ _ _ _ _).add (t _ _ _ _ _ _ _)).add (t _ _ _ _ _ _ _)).add (t _ _ _ _ _ _ _)
  · exact ((((t _ _ _ _ _ _ _).add (t _ _ _ _ _ _ _)).add (t _ _ _ _ _ _ _)).add (t _ _ _ _ _ _ _)).add (t _ _ _ _ _ _ _)
  · exact (((((t _ _ _ _ _ _ _).add (t _ _ _ _ _ _ _)).add (t _ _ _ _ _ _ _)).add (t _ _ _ _ _ _ _)).add (t _ _ _ _ _ _ _)).add (t _ _ _ _ _ _ _)
  · exact ((((((t _ _ _ _ _ _ _).add (t _ _ _ _ _ _ _)).add (t _ _ _ _ _ _ _)).add (t _ _ _ _ _ _ _)).add (t _ _ _ _ _ _ _)).add (t _ _ _ _ _ _ _)).add (t _ _ _ _ _ _ _)
  · exact (((((((t _ _ _ _ _ _ _).add (t _ _ _ _ _ _ _)).add (t _ _ _ _ _ _ _)).add (t _ _ _ _ _ _ _)).add (t _ _ _ _ _ _ _)).add (t _ _ _ _ _ _ _)).add (t _ _ _ _ _ _ _)).add (t _ _ _ _ _ _ _)

end Verif.BoostFlux
