import Verif.Model.Ladder
import Verif.Spec.Ladder
import Verif.Lemmas.Modes
import Mathlib.Tactic.Positivity
import Mathlib.Tactic.FieldSimp

namespace Verif.Ladder
open Verif.Modes Verif.Spec.Ladder

/-- The loop on a list of specification operations, first executed first. -/
noncomputable def run (ell : Int) (c : ℝ) (ops : List Op) (s : Int) : St :=
  (ops.map Op.shift).reverse.foldl (body ell c) ⟨1, 1, s⟩

theorem run_cons (ell : Int) (c : ℝ) (o : Op) (ops : List Op) (s : Int) :
    run ell c (o :: ops) s = body ell c (run ell c ops s) o.shift := by
  simp [run, List.foldl_append]

theorem radicand_nonneg (ell s : Int) (h : |s| ≤ ell) (o : Op) :
    0 ≤ ((ell - s * o.shift : Int) : ℝ) * ((ell + s * o.shift : Int) + 1 : ℝ) := by
  rw [abs_le] at h
  have h1 : 0 ≤ ell - s * o.shift := by cases o <;> simp only [Op.shift] <;> omega
  have h2 : 0 ≤ ell + s * o.shift := by cases o <;> simp only [Op.shift] <;> omega
  have h1' : (0 : ℝ) ≤ ((ell - s * o.shift : Int) : ℝ) := by exact_mod_cast h1
  have h2' : (0 : ℝ) ≤ ((ell + s * o.shift : Int) : ℝ) := by exact_mod_cast h2
  positivity

theorem run_spec (ell : Int) (c : ℝ) (hc : 0 ≤ c) (ops : List Op) (s : Int) :
    (run ell c ops s).s = spinAfter s ops ∧ 0 ≤ (run ell c ops s).ladder ∧
      (run ell c ops s).signFactor * Real.sqrt (run ell c ops s).ladder =
        Real.sqrt c ^ ops.length * factor s ell ops := by
  induction ops with
  | nil => simp [run, spinAfter, factor]
  | cons o ops ih =>
    obtain ⟨i1, i2, i3⟩ := ih
    rw [run_cons]
    generalize run ell c ops s = st at *
    refine ⟨?_, ?_, ?_⟩
    · simp only [body, spinAfter, i1]
    · simp only [body]
      split
      · exact mul_nonneg (mul_nonneg i2 (radicand_nonneg _ _ (by assumption) _)) hc
      · simp
    · simp only [body]
      by_cases h : ell ≥ |st.s|
      · rw [if_pos h, Real.sqrt_mul (mul_nonneg i2 (radicand_nonneg _ _ h _)), Real.sqrt_mul i2]
        have hs : (o.shift : ℝ) * Real.sqrt (((ell - st.s * o.shift : Int) : ℝ) *
            ((ell + st.s * o.shift : Int) + 1 : ℝ)) = single st.s ell o := by
          cases o
          · simp only [Op.shift, single, if_pos h]
            push_cast
            rw [one_mul, mul_one]
          · simp only [Op.shift, single, if_pos h]
            push_cast
            rw [neg_one_mul]
            congr 2
            ring
        simp only [factor, List.length_cons, pow_succ, ← i1]
        rw [← hs]
        linear_combination (Real.sqrt c * (o.shift : ℝ) * Real.sqrt (((ell - st.s * o.shift : Int) : ℝ) *
            ((ell + st.s * o.shift : Int) + 1 : ℝ))) * i3
      · rw [if_neg h]
        have : single (spinAfter s ops) ell o = 0 := by
          rw [← i1]
          cases o <;> simp only [single] <;> rw [if_neg (by simpa using h)]
        simp [factor, this]

/-- Reading a valid element list as operations. -/
theorem elements_valid (l : List Elem) (h : l.all (fun e => (opDict e).isSome)) :
    ∃ ops : List Op, l.map opDict = ops.map (fun o => some o.shift) ∧
      l.reverse.filterMap opDict = (ops.map Op.shift).reverse := by
  induction l with
  | nil => exact ⟨[], rfl, rfl⟩
  | cons e l ih =>
    simp only [List.all_cons, Bool.and_eq_true] at h
    obtain ⟨ops, h1, h2⟩ := ih h.2
    have : ∃ o : Op, opDict e = some o.shift := by
      have he := h.1
      rw [Option.isSome_iff_exists] at he
      obtain ⟨x, hx⟩ := he
      have : x = 1 ∨ x = -1 := by
        cases e with
        | str s =>
          simp only [opDict] at hx
          split at hx
          · left; simpa using hx.symm
          split at hx
          · right; simpa using hx.symm
          split at hx
          · left; simpa using hx.symm
          split at hx
          · right; simpa using hx.symm
          · cases hx
        | int n =>
          simp only [opDict] at hx
          split at hx
          · left; simpa using hx.symm
          split at hx
          · right; simpa using hx.symm
          · cases hx
      rcases this with rfl | rfl
      · exact ⟨.eth, hx⟩
      · exact ⟨.ethbar, hx⟩
    obtain ⟨o, ho⟩ := this
    refine ⟨o :: ops, by simp [h1, ho], ?_⟩
    simp [List.filterMap_append, h2, ho]

end Verif.Ladder

namespace Verif.Ladder
open Verif.Modes Verif.Spec.Ladder

def Op.sym : Op → Char
  | .eth => '+'
  | .ethbar => '-'

theorem replaceBar_cons_ne (a : Char) (l : List Char)
    (h : ¬ (a = ethChar ∧ l.head? = some barChar)) : replaceBar (a :: l) = a :: replaceBar l := by
  cases l with
  | nil => simp [replaceBar]
  | cons b l =>
    rw [replaceBar, if_neg]
    rintro ⟨h1, h2⟩; exact h ⟨h1, by simp [h2]⟩

theorem spells_head {s : List Char} {ops : List Op} (h : Spells s ops) : s.head? ≠ some barChar := by
  cases h with
  | nil => simp
  | cons p s o ops hp h =>
    cases o <;> simp only [Op.spellings, List.mem_cons, List.not_mem_nil, or_false] at hp <;>
      rcases hp with rfl | rfl <;> simp [barChar] <;> decide

theorem normalize_spells {s : List Char} {ops : List Op} (h : Spells s ops) :
    replaceEth (replaceBar s) = ops.map Op.sym := by
  induction h with
  | nil => rfl
  | cons p s o ops hp h ih =>
    have hh := spells_head h
    cases o <;> simp only [Op.spellings, List.mem_cons, List.not_mem_nil, or_false] at hp <;>
      rcases hp with rfl | rfl
    · rw [List.singleton_append, replaceBar_cons_ne _ _ (fun hc => hh hc.2)]
      simp only [replaceEth, List.map_cons] at ih ⊢
      rw [ih]; rfl
    · rw [List.singleton_append, replaceBar_cons_ne _ _ (fun hc => hh hc.2)]
      simp only [replaceEth, List.map_cons] at ih ⊢
      rw [ih]; rfl
    · show replaceEth (replaceBar ('ð' :: Char.ofNat 0x305 :: s)) = _
      rw [replaceBar, if_pos ⟨rfl, rfl⟩]
      simp only [replaceEth, List.map_cons] at ih ⊢
      rw [ih]; rfl
    · rw [List.singleton_append, replaceBar_cons_ne _ _ (fun hc => hh hc.2)]
      simp only [replaceEth, List.map_cons] at ih ⊢
      rw [ih]; rfl

theorem opDict_char (c : Char) (h : (opDict (.str [c])).isSome) (hc : c ≠ ethChar) :
    c = '+' ∨ c = '-' := by
  simp only [opDict] at h
  split at h
  · rename_i h1; simp at h1; exact absurd h1 hc
  split at h
  · rename_i h1; simp at h1
  split at h
  · rename_i h1; simp at h1; exact Or.inl h1
  split at h
  · rename_i h1; simp at h1; exact Or.inr h1
  · cases h

theorem spells_of_valid (s : List Char)
    (h : ∀ c ∈ replaceEth (replaceBar s), (opDict (.str [c])).isSome) :
    ∃ ops, Spells s ops := by
  have hh : ∀ c ∈ replaceEth (replaceBar s), c = '+' ∨ c = '-' := by
    intro c hc
    apply opDict_char c (h c hc)
    simp only [replaceEth, List.mem_map] at hc
    obtain ⟨d, _, rfl⟩ := hc
    split
    · decide
    · assumption
  clear h
  fun_induction replaceBar s with
  | case1 a b l hab ih =>
    obtain ⟨ops, hops⟩ := ih (fun c hc => hh c (by
      simp only [replaceEth, List.map_cons, List.mem_cons] at hc ⊢; exact Or.inr hc))
    obtain ⟨rfl, rfl⟩ := hab
    exact ⟨.ethbar :: ops, Spells.cons [ethChar, barChar] l .ethbar ops
      (by simp [Op.spellings, ethChar, barChar]) hops⟩
  | case2 a b l hab ih =>
    obtain ⟨ops, hops⟩ := ih (fun c hc => hh c (by
      simp only [replaceEth, List.map_cons, List.mem_cons] at hc ⊢; exact Or.inr hc))
    have ha := hh (if a = ethChar then '+' else a) (by simp [replaceEth])
    split at ha
    · rename_i e
      exact ⟨.eth :: ops, Spells.cons [a] (b :: l) .eth ops (by rw [e]; simp [Op.spellings, ethChar]) hops⟩
    · rcases ha with e | e
      · exact ⟨.eth :: ops, Spells.cons [a] (b :: l) .eth ops (by rw [e]; simp [Op.spellings]) hops⟩
      · exact ⟨.ethbar :: ops, Spells.cons [a] (b :: l) .ethbar ops (by rw [e]; simp [Op.spellings]) hops⟩
  | case3 l hl =>
    match l, hl with
    | [], _ => exact ⟨[], Spells.nil⟩
    | [a], _ =>
      have ha := hh (if a = ethChar then '+' else a) (by simp [replaceEth])
      split at ha
      · rename_i e
        exact ⟨[.eth], Spells.cons [a] [] .eth [] (by rw [e]; simp [Op.spellings, ethChar]) Spells.nil⟩
      · rcases ha with e | e
        · exact ⟨[.eth], Spells.cons [a] [] .eth [] (by rw [e]; simp [Op.spellings]) Spells.nil⟩
        · exact ⟨[.ethbar], Spells.cons [a] [] .ethbar [] (by rw [e]; simp [Op.spellings]) Spells.nil⟩
    | a :: b :: l, hl => exact absurd rfl (hl a b l)

end Verif.Ladder
