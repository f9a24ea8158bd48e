import Verif.Lemmas.BalanceIntegrals

/-!
# Integrals over the sphere of a function with `ell = 1` and two functions
-/

namespace Verif.Triple
open Verif.GridMultiply Verif.Spec.Sphere Verif.Spec.Boost Verif.Balance Verif.SphereParts Verif.Props.SphereOps Verif.Charges ComplexConjugate

/-- Equal where the harmonics are. -/
def Agree (a b : Int) (f g : Modes) : Prop := ∀ ell m, a ≤ ell → ell ≤ b → |m| ≤ ell → f ell m = g ell m

theorem Agree.field {s a b : Int} {f g : Modes} (h : Agree a b f g) : field s a b f = field s a b g := by
  funext θ φ
  exact field_congr _ _ _ _ _ θ φ fun ell m h1 h2 h3 h4 => by rw [h ell m h1 h2 (abs_le.2 ⟨h3, h4⟩)]

theorem Agree.eth {a b : Int} {f g : Modes} (h : Agree a b f g) (s : Int) : Agree a b (eth s f) (eth s g) := fun ell m h1 h2 h3 => by
  unfold Verif.Spec.Boost.eth; rw [h ell m h1 h2 h3]
theorem Agree.ethbar {a b : Int} {f g : Modes} (h : Agree a b f g) (s : Int) : Agree a b (ethbar s f) (ethbar s g) := fun ell m h1 h2 h3 => by
  unfold Verif.Spec.Boost.ethbar; rw [h ell m h1 h2 h3]

variable (b : Int)

noncomputable def T (sN : Int) (N : Modes) (s : Int) (f : Modes) (t : Int) (g : Modes) : ℂ :=
  solid fun θ φ => field sN 1 1 N θ φ * field s 0 b f θ φ * field t 0 b g θ φ

variable {b}

theorem T_congr {sN s t : Int} {N N' f f' g g' : Modes} (hN : Agree 1 1 N N') (hf : Agree 0 b f f') (hg : Agree 0 b g g') : T b sN N s f t g = T b sN N' s f' t g' := by
  unfold T; rw [hN.field, hf.field, hg.field]

theorem T_swap (sN : Int) (N : Modes) (s : Int) (f : Modes) (t : Int) (g : Modes) : T b sN N s f t g = T b sN N t g s f := by
  unfold T; congr 1; funext θ φ; ring

theorem T_add (sN : Int) (N : Modes) (s : Int) (f f' : Modes) (t : Int) (g : Modes) : T b sN N s (fun ell m => f ell m + f' ell m) t g = T b sN N s f t g + T b sN N s f' t g := by
  unfold T
  rw [← solid_add C3 C3]
  congr 1; funext θ φ
  rw [Verif.Props.AngMomIntegral.field_sum]; ring

theorem T_add' (sN : Int) (N : Modes) (s : Int) (f : Modes) (t : Int) (g g' : Modes) : T b sN N s f t (fun ell m => g ell m + g' ell m) = T b sN N s f t g + T b sN N s f t g' := by
  rw [T_swap, T_add, T_swap, T_swap _ _ _ g']

theorem T_smul (sN : Int) (N : Modes) (s : Int) (k : ℂ) (f : Modes) (t : Int) (g : Modes) : T b sN N s (fun ell m => k * f ell m) t g = k * T b sN N s f t g := by
  unfold T
  rw [← solid_const]
  congr 1; funext θ φ
  rw [field_const]; ring

theorem T_smul' (sN : Int) (N : Modes) (s : Int) (k : ℂ) (f : Modes) (t : Int) (g : Modes) : T b sN N s f t (fun ell m => k * g ell m) = k * T b sN N s f t g := by
  rw [T_swap, T_smul, T_swap]

theorem T_smulN (sN : Int) (N : Modes) (s : Int) (k : ℂ) (f : Modes) (t : Int) (g : Modes) : T b sN (fun ell m => k * N ell m) s f t g = k * T b sN N s f t g := by
  unfold T
  rw [← solid_const]
  congr 1; funext θ φ
  rw [field_const]; ring

theorem T_conj (sN : Int) (N : Modes) (s : Int) (f : Modes) (t : Int) (g : Modes) : conj (T b sN N s f t g) = T b (-sN) (bar sN N) (-s) (bar s f) (-t) (bar t g) := by
  unfold T
  rw [← solid_conj C3]
  congr 1; funext θ φ
  rw [map_mul, map_mul, field_conj, field_conj, field_conj]

theorem T_eth (sN : Int) (N : Modes) (s : Int) (f : Modes) (t : Int) (g : Modes) (h : sN + s + t = -1) :
    T b (sN + 1) (eth sN N) s f t g + T b sN N (s + 1) (eth s f) t g + T b sN N s f (t + 1) (eth t g) = 0 := by
  unfold T
  rw [← solid_add C3 C3, ← solid_add (C3.add C3) C3]
  exact (parts sN s t 1 1 0 b 0 b N f g).1 h

theorem T_ethbar (sN : Int) (N : Modes) (s : Int) (f : Modes) (t : Int) (g : Modes) (h : sN + s + t = 1) :
    T b (sN - 1) (ethbar sN N) s f t g + T b sN N (s - 1) (ethbar s f) t g + T b sN N s f (t - 1) (ethbar t g) = 0 := by
  unfold T
  rw [← solid_add C3 C3, ← solid_add (C3.add C3) C3]
  exact (parts sN s t 1 1 0 b 0 b N f g).2 h

/-! ## The unit vector -/

theorem two : ((√2 : ℝ) : ℂ) * ((√2 : ℝ) : ℂ) = 2 := by rw [← Complex.ofReal_mul, Real.mul_self_sqrt (by norm_num)]; norm_num

variable (i : Fin 3)

theorem n1 : Agree 1 1 (eth (-1) (ethbar 0 (chi i))) (fun ell m => (-2 : ℂ) * chi i ell m) := by
  intro ell m h1 h2 _
  obtain rfl : ell = 1 := by omega
  unfold eth ethbar
  norm_num
  linear_combination (chi i 1 m) * two
theorem n2 : Agree 1 1 (ethbar 1 (eth 0 (chi i))) (fun ell m => (-2 : ℂ) * chi i ell m) := by
  intro ell m h1 h2 _
  obtain rfl : ell = 1 := by omega
  unfold eth ethbar
  norm_num
  linear_combination (chi i 1 m) * two
theorem n3 : Agree 1 1 (ethbar (-1) (ethbar 0 (chi i))) (fun ell m => (0 : ℂ) * chi i ell m) := by
  intro ell m h1 h2 _
  obtain rfl : ell = 1 := by omega
  unfold ethbar
  norm_num
theorem n4 : Agree 1 1 (eth 1 (eth 0 (chi i))) (fun ell m => (0 : ℂ) * chi i ell m) := by
  intro ell m h1 h2 _
  obtain rfl : ell = 1 := by omega
  unfold eth
  norm_num

theorem Agree.refl {a b : Int} (f : Modes) : Agree a b f f := fun _ _ _ _ _ => rfl

/-- Integration by parts with the unit vector and its derivatives. -/
theorem p_ethbar_eth (s : Int) (f : Modes) (t : Int) (g : Modes) (h : s + t = 0) :
    T b (-1) (ethbar 0 (chi i)) (s + 1) (eth s f) t g + T b (-1) (ethbar 0 (chi i)) s f (t + 1) (eth t g) = 2 * T b 0 (chi i) s f t g := by
  have h := T_eth (b := b) (-1) (ethbar 0 (chi i)) s f t g (by omega)
  rw [show (-1 : Int) + 1 = 0 by norm_num, T_congr (n1 i) (Agree.refl f) (Agree.refl g), T_smulN] at h
  linear_combination h
theorem p_eth_ethbar (s : Int) (f : Modes) (t : Int) (g : Modes) (h : s + t = 0) :
    T b 1 (eth 0 (chi i)) (s - 1) (ethbar s f) t g + T b 1 (eth 0 (chi i)) s f (t - 1) (ethbar t g) = 2 * T b 0 (chi i) s f t g := by
  have h := T_ethbar (b := b) 1 (eth 0 (chi i)) s f t g (by omega)
  rw [show (1 : Int) - 1 = 0 by norm_num, T_congr (n2 i) (Agree.refl f) (Agree.refl g), T_smulN] at h
  linear_combination h
theorem p_ethbar_ethbar (s : Int) (f : Modes) (t : Int) (g : Modes) (h : s + t = 2) :
    T b (-1) (ethbar 0 (chi i)) (s - 1) (ethbar s f) t g + T b (-1) (ethbar 0 (chi i)) s f (t - 1) (ethbar t g) = 0 := by
  have h := T_ethbar (b := b) (-1) (ethbar 0 (chi i)) s f t g (by omega)
  rw [show (-1 : Int) - 1 = -2 by norm_num, T_congr (n3 i) (Agree.refl f) (Agree.refl g), T_smulN] at h
  linear_combination h
theorem p_chi_ethbar (s : Int) (f : Modes) (t : Int) (g : Modes) (h : s + t = 1) :
    T b (-1) (ethbar 0 (chi i)) s f t g + T b 0 (chi i) (s - 1) (ethbar s f) t g + T b 0 (chi i) s f (t - 1) (ethbar t g) = 0 := by
  have h := T_ethbar (b := b) 0 (chi i) s f t g (by omega)
  rwa [show (0 : Int) - 1 = -1 by norm_num] at h

/-! ## Conjugates -/

theorem chi_bar : Agree 1 1 (bar 0 (chi i)) (chi i) := by
  intro ell m h1 h2 h3
  obtain rfl : ell = 1 := by omega
  obtain ⟨a1, a2, a3, a4, a5, a6, a7, a8, a9⟩ := Verif.Props.BoostFlux.chi_values
  rw [abs_le] at h3
  have hm : m = -1 ∨ m = 0 ∨ m = 1 := by omega
  unfold bar
  fin_cases i <;> rcases hm with rfl | rfl | rfl <;> simp_all

theorem conj_chi (s : Int) (f : Modes) (t : Int) (g : Modes) : conj (T b 0 (chi i) s f t g) = T b 0 (chi i) (-s) (bar s f) (-t) (bar t g) := by
  rw [T_conj, neg_zero, T_congr (chi_bar i) (Agree.refl _) (Agree.refl _)]
theorem conj_ebar (s : Int) (f : Modes) (t : Int) (g : Modes) : conj (T b (-1) (ethbar 0 (chi i)) s f t g) = T b 1 (eth 0 (chi i)) (-s) (bar s f) (-t) (bar t g) := by
  unfold T
  rw [← solid_conj C3]
  congr 1; funext θ φ
  rw [map_mul, map_mul, field_conj s, field_conj t, conj_ethbarchi]

theorem bar_ethbar (s : Int) (f : Modes) : bar (s - 1) (ethbar s f) = eth (-s) (bar s f) := by
  have h := bar_eth (-s) (bar s f)
  rw [neg_neg, bar_bar] at h
  have h2 := congrArg (bar (-s + 1)) h
  have h3 := bar_bar (-s + 1) (eth (-s) (bar s f))
  rw [h, show -(-s + 1) = s - 1 by ring] at h3
  exact h3

end Verif.Triple
