import Verif.Lemmas.FluxOps

/-!
# The momentum operators from `cos θ` and the angular momentum
-/

namespace Verif.Flux
open Verif.Modes Verif.Slicing Verif.Spec.Flux Verif.Spec.AngMom Verif.ModeCalc

theorem ladder_split (l m : Int) (h : -l - 1 ≤ m ∧ m ≤ l) : ladder l m = √(l - m : ℝ) * √(l + m + 1 : ℝ) := by
  have h1 : (0 : ℝ) ≤ l - m := by have : (m : ℝ) ≤ l := by exact_mod_cast h.2
                                  linarith
  unfold ladder
  rw [← Real.sqrt_mul h1]
  congr 1; push_cast; ring

/-- The part common to both sides. -/
theorem comm_core_up (L m : Int) (hL : 1 ≤ L) (hm : -(L - 1) ≤ m ∧ m ≤ L - 1) :
    -(√2 * cg (L - 1) m 1 L) = cg (L - 1) (m + 1) 0 L * ladder (L - 1) m - ladder L m * cg (L - 1) m 0 L := by
  have hLr : (1 : ℝ) ≤ L := by exact_mod_cast hL
  have h1r : (-(L - 1) : ℝ) ≤ m := by exact_mod_cast hm.1
  have h2r : (m : ℝ) ≤ L - 1 := by exact_mod_cast hm.2
  obtain ⟨u1, u0, _⟩ := cg_up L m hL hm.1 hm.2
  have p1 : 0 < √(2 * L - 1 : ℝ) := Real.sqrt_pos.mpr (by linarith)
  have p2 : 0 < √(L : ℝ) := Real.sqrt_pos.mpr (by linarith)
  have p4 : 0 < √(2 : ℝ) := Real.sqrt_pos.mpr (by norm_num)
  have q1 : √(L - m : ℝ) * √(L - m : ℝ) = L - m := Real.mul_self_sqrt (by linarith)
  rw [u1, u0, ladder_split L m (by omega)]
  by_cases h : m + 1 ≤ L - 1
  · obtain ⟨_, v0, _⟩ := cg_up L (m + 1) hL (by omega) h
    have h3r : (m : ℝ) + 1 ≤ L - 1 := by exact_mod_cast h
    have q2 : √(L - m - 1 : ℝ) * √(L - m - 1 : ℝ) = L - m - 1 := Real.mul_self_sqrt (by linarith)
    rw [v0, ladder_split (L - 1) m (by omega)]
    push_cast
    simp only [show (L - (m + 1) : ℝ) = L - m - 1 by ring, show (L + (m + 1) : ℝ) = L + m + 1 by ring,
      show (L - 1 - m : ℝ) = L - m - 1 by ring, show (L - 1 + m + 1 : ℝ) = L + m by ring]
    revert p1 p2 p4 q1 q2
    generalize √(2 * L - 1 : ℝ) = r1
    generalize √(L : ℝ) = r3
    generalize √(2 : ℝ) = r4
    generalize √(L - m : ℝ) = a
    generalize √(L - m - 1 : ℝ) = b
    generalize √(L + m : ℝ) = c
    generalize √(L + m + 1 : ℝ) = d
    intro p1 p2 p4 q1 q2
    field_simp
    linear_combination c * d * (q1 - q2)
  · have hm' : m = L - 1 := by omega
    rw [cg_zero (m := m + 1) (by omega), zero_mul, zero_sub]
    have q3 : √(L - m : ℝ) * √(L - m : ℝ) = 1 := by rw [q1, hm']; push_cast; ring
    revert p1 p2 p4 q3
    generalize √(2 * L - 1 : ℝ) = r1
    generalize √(L : ℝ) = r3
    generalize √(2 : ℝ) = r4
    generalize √(L - m : ℝ) = a
    intro p1 p2 p4 q3
    field_simp
    linear_combination √(L + m : ℝ) * √(L + m + 1 : ℝ) * q3

theorem comm_core_same (L m : Int) (hL : 1 ≤ L) (hm : -L ≤ m ∧ m ≤ L) :
    -(√2 * cg L m 1 L) = cg L (m + 1) 0 L * ladder L m - ladder L m * cg L m 0 L := by
  have hLr : (1 : ℝ) ≤ L := by exact_mod_cast hL
  obtain ⟨u1, u0, _⟩ := cg_same L m hL hm.1 hm.2
  have p1 : 0 < √(L + 1 : ℝ) := Real.sqrt_pos.mpr (by linarith)
  have p2 : 0 < √(L : ℝ) := Real.sqrt_pos.mpr (by linarith)
  have p4 : 0 < √(2 : ℝ) := Real.sqrt_pos.mpr (by norm_num)
  rw [u1, u0, ladder_split L m (by omega)]
  by_cases h : m + 1 ≤ L
  · rw [(cg_same L (m + 1) hL (by omega) h).2.1]
    push_cast
    field_simp
    ring
  · have : m = L := by omega
    subst this
    simp

theorem comm_core_down (L m : Int) (hL : 1 ≤ L) (hm : -L ≤ m ∧ m ≤ L) (hn : -(L - 1) ≤ m + 1 ∧ m + 1 ≤ L - 1) :
    -(√2 * cg L m 1 (L - 1)) = cg L (m + 1) 0 (L - 1) * ladder L m - ladder (L - 1) m * cg L m 0 (L - 1) := by
  have hLr : (1 : ℝ) ≤ L := by exact_mod_cast hL
  have h1r : (-L : ℝ) ≤ m := by exact_mod_cast hm.1
  have h2r : (m : ℝ) + 1 ≤ L - 1 := by exact_mod_cast hn.2
  obtain ⟨u1, u0, _⟩ := cg_down (L - 1) m (by omega) (by omega) (by omega)
  have v0 := (cg_down (L - 1) (m + 1) (by omega) (by omega) (by omega)).2.1
  rw [show L - 1 + 1 = L by ring] at u1 u0 v0
  have p1 : 0 < √(2 * L + 1 : ℝ) := Real.sqrt_pos.mpr (by linarith)
  have p2 : 0 < √(L : ℝ) := Real.sqrt_pos.mpr (by linarith)
  have p4 : 0 < √(2 : ℝ) := Real.sqrt_pos.mpr (by norm_num)
  have q1 : √(L + m : ℝ) * √(L + m : ℝ) = L + m := Real.mul_self_sqrt (by linarith)
  have q2 : √(L + m + 1 : ℝ) * √(L + m + 1 : ℝ) = L + m + 1 := Real.mul_self_sqrt (by linarith)
  rw [u1, u0, v0, ladder_split L m (by omega), ladder_split (L - 1) m (by omega)]
  push_cast
  simp only [show (L - 1 + 1 : ℝ) = L by ring, show (2 * (L - 1) + 3 : ℝ) = 2 * L + 1 by ring,
    show (L - 1 - m + 1 : ℝ) = L - m by ring, show (L - 1 + m + 1 : ℝ) = L + m by ring,
    show (L - 1 - (m + 1) + 1 : ℝ) = L - m - 1 by ring, show (L - 1 + (m + 1) + 1 : ℝ) = L + m + 1 by ring,
    show (L - 1 - m : ℝ) = L - m - 1 by ring, sub_add_cancel]
  revert p1 p2 p4 q1 q2
  generalize √(2 * L + 1 : ℝ) = r1
  generalize √(L : ℝ) = r3
  generalize √(2 : ℝ) = r4
  generalize √(L - m : ℝ) = a
  generalize √(L - m - 1 : ℝ) = b
  generalize √(L + m : ℝ) = c
  generalize √(L + m + 1 : ℝ) = d
  intro p1 p2 p4 q1 q2
  field_simp
  linear_combination a * b * (q2 - q1)

/-- `p_+ = [p_z, L_+]`. -/
theorem el_comm (s j l m : Int) (hm : -l ≤ m ∧ m ≤ l) (hn : -j ≤ m + 1 ∧ m + 1 ≤ j) :
    -(√2 * el s 1 j l m) = el s 0 j l (m + 1) * ladder l m - ladder j m * el s 0 j l m := by
  have key : -(√2 * cg l m 1 j) = cg l (m + 1) 0 j * ladder l m - ladder j m * cg l m 0 j := by
    by_cases hf : j < l - 1 ∨ l + 1 < j
    · rw [cg_far hf, cg_far hf, cg_far hf]; ring
    · have : j = l + 1 ∨ j = l ∨ j = l - 1 := by omega
      rcases this with rfl | rfl | rfl
      · have := comm_core_up (l + 1) m (by omega) (by omega)
        rw [show l + 1 - 1 = l by ring] at this
        exact this
      · exact comm_core_same j m (by omega) hm
      · exact comm_core_down l m (by omega) hm hn
  unfold el
  linear_combination √((2 * l + 1) / (2 * j + 1) : ℝ) * cg l (-s) 0 j * key

/-- `p_- = [L_-, p_z]`. -/
theorem el_comm' (s j l m : Int) (hm : -l ≤ m ∧ m ≤ l) (hn : -j ≤ m - 1 ∧ m - 1 ≤ j) :
    √2 * el s (-1) j l m = ladder j (m - 1) * el s 0 j l m - el s 0 j l (m - 1) * ladder l (m - 1) := by
  have h := el_comm s l j (m - 1) hn (by omega)
  rw [sub_add_cancel] at h
  have h1 := el_herm s (-1) j l m (by decide)
  have h2 := el_herm s 0 j l m (by decide)
  have h3 := el_herm s 0 j l (m - 1) (by decide)
  simp only [pm] at h1 h2 h3
  norm_num at h1 h2 h3
  rw [← sub_eq_add_neg] at h1
  rw [h1, h2, h3]
  linear_combination h

/-- `cos θ` between `l` and `l + 1`. -/
theorem el_zero_up (s l m : Int) (hm : -l ≤ m ∧ m ≤ l) (hs : -l ≤ s ∧ s ≤ l) :
    el s 0 (l + 1) l m = √(((l + 1) ^ 2 - m ^ 2) * ((l + 1) ^ 2 - s ^ 2) : ℝ) / ((l + 1) * √((2 * l + 1) * (2 * l + 3) : ℝ)) := by
  have hl : (0 : ℝ) ≤ l := by exact_mod_cast (show 0 ≤ l by omega)
  have h1r : (-l : ℝ) ≤ m := by exact_mod_cast hm.1
  have h2r : (m : ℝ) ≤ l := by exact_mod_cast hm.2
  have h3r : (-l : ℝ) ≤ s := by exact_mod_cast hs.1
  have h4r : (s : ℝ) ≤ l := by exact_mod_cast hs.2
  have u := (cg_up (l + 1) m (by omega) (by omega) (by omega)).2.1
  have v := (cg_up (l + 1) (-s) (by omega) (by omega) (by omega)).2.1
  rw [show l + 1 - 1 = l by ring] at u v
  unfold el
  rw [u, v]
  push_cast
  simp only [show (2 * (l + 1) - 1 : ℝ) = 2 * l + 1 by ring, show (2 * (l + 1) + 1 : ℝ) = 2 * l + 3 by ring,
    show (l + 1 - -s : ℝ) = l + 1 + s by ring, show (l + 1 + -s : ℝ) = l + 1 - s by ring]
  rw [show (((l + 1) ^ 2 - m ^ 2) * ((l + 1) ^ 2 - s ^ 2) : ℝ) = (l + 1 - m) * ((l + 1 + m) * ((l + 1 + s) * (l + 1 - s))) by ring,
    Real.sqrt_mul (by linarith), Real.sqrt_mul (by linarith), Real.sqrt_mul (by linarith), Real.sqrt_mul (by linarith : (0 : ℝ) ≤ 2 * l + 1),
    Real.sqrt_div (by linarith)]
  have p1 : 0 < √(2 * l + 1 : ℝ) := Real.sqrt_pos.mpr (by linarith)
  have p2 : 0 < √(2 * l + 3 : ℝ) := Real.sqrt_pos.mpr (by linarith)
  have p3 : 0 < √(l + 1 : ℝ) := Real.sqrt_pos.mpr (by linarith)
  have q3 : √(l + 1 : ℝ) * √(l + 1 : ℝ) = l + 1 := Real.mul_self_sqrt (by linarith)
  have hl1 : (l + 1 : ℝ) ≠ 0 := by linarith
  revert p1 p2 p3 q3
  generalize √(2 * l + 1 : ℝ) = r1
  generalize √(2 * l + 3 : ℝ) = r2
  generalize √(l + 1 : ℝ) = r3
  generalize √(l + 1 - m : ℝ) = x1
  generalize √(l + 1 + m : ℝ) = x2
  generalize √(l + 1 + s : ℝ) = x3
  generalize √(l + 1 - s : ℝ) = x4
  intro p1 p2 p3 q3
  field_simp
  linear_combination -(x1 * x2 * x3 * x4) * q3

/-- `cos θ` within `l`. -/
theorem el_zero_same (s l m : Int) (hl1 : 1 ≤ l) (hm : -l ≤ m ∧ m ≤ l) (hs : -l ≤ s ∧ s ≤ l) :
    el s 0 l l m = -((m : ℝ) * s) / (l * (l + 1)) := by
  have hl : (1 : ℝ) ≤ l := by exact_mod_cast hl1
  have u := (cg_same l m hl1 hm.1 hm.2).2.1
  have v := (cg_same l (-s) hl1 (by omega) (by omega)).2.1
  unfold el
  rw [u, v, div_self (by positivity), Real.sqrt_one]
  have p3 : 0 < √(l + 1 : ℝ) := Real.sqrt_pos.mpr (by linarith)
  have p4 : 0 < √(l : ℝ) := Real.sqrt_pos.mpr (by linarith)
  have q3 : √(l + 1 : ℝ) * √(l + 1 : ℝ) = l + 1 := Real.mul_self_sqrt (by linarith)
  have q4 : √(l : ℝ) * √(l : ℝ) = l := Real.mul_self_sqrt (by linarith)
  have : (l * (l + 1) : ℝ) = (√(l : ℝ) * √(l + 1 : ℝ)) * (√(l : ℝ) * √(l + 1 : ℝ)) := by
    linear_combination -(l + 1 : ℝ) * q4 - √(l : ℝ) * √(l : ℝ) * q3
  rw [this]
  push_cast
  field_simp

end Verif.Flux
