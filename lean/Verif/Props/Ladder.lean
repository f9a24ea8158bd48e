import Verif.Lemmas.Ladder
import Verif.Lemmas.Parity

/-!
# C10: spin raising and lowering
-/

namespace Verif.Props.Ladder
open Verif.Modes Verif.Ladder Verif.Spec.Ladder

/-- An element of a list of operations denotes `o`. -/
def Denotes (e : Elem) (o : Op) : Prop :=
  match o with
  | .eth => e = .str ['ð'] ∨ e = .str ['+'] ∨ e = .int 1
  | .ethbar => e = .str ['ð', Char.ofNat 0x305] ∨ e = .str ['-'] ∨ e = .int (-1)

theorem denotes_opDict {e : Elem} {o : Op} (h : Denotes e o) : opDict e = some o.shift := by
  cases o <;> simp only [Denotes] at h <;> rcases h with rfl | rfl | rfl <;> decide

theorem denotes_of_opDict {e : Elem} (h : (opDict e).isSome) : ∃ o, Denotes e o := by
  cases e with
  | str s =>
    simp only [opDict] at h
    split at h
    · exact ⟨.eth, Or.inl (by simp [*, ethChar])⟩
    split at h
    · exact ⟨.ethbar, Or.inl (by simp [*, ethChar, barChar])⟩
    split at h
    · exact ⟨.eth, Or.inr (Or.inl (by simp [*]))⟩
    split at h
    · exact ⟨.ethbar, Or.inr (Or.inl (by simp [*]))⟩
    · cases h
  | int n =>
    simp only [opDict] at h
    split at h
    · exact ⟨.eth, Or.inr (Or.inr (by simp [*]))⟩
    split at h
    · exact ⟨.ethbar, Or.inr (Or.inr (by simp [*]))⟩
    · cases h

theorem ladder_core (ops : Operations) (l : List Op) (s ell : Int) (conv : String) (c : ℝ)
    (hc : convDict conv = some c) (hc0 : 0 ≤ c)
    (h : List.Forall₂ (fun e o => opDict e = some (Op.shift o)) (elements ops) l) :
    ladderFactor ops s ell conv = .ok (Real.sqrt c ^ l.length * factor s ell l) := by
  unfold ladderFactor
  simp only
  generalize elements ops = es at h ⊢
  have hall : es.all (fun e => (opDict e).isSome) = true := by
    induction h with
    | nil => rfl
    | cons h1 h2 ih => rw [List.all_cons, ih, h1]; rfl
  have hmap : es.reverse.filterMap opDict = (l.map Op.shift).reverse := by
    clear hall
    induction h with
    | nil => rfl
    | cons h1 h2 ih => simp [List.filterMap_append, ih, h1]
  simp only [hall, if_true, hc]
  congr 1
  rw [hmap]
  exact (run_spec ell c hc0 l s).2.2

/-- C10.  For a list of operations the factor is the product of the single-step factors at the
running spin weight, the last operation acting first (Newman-Penrose convention). -/
theorem ladder_factor_list_NP (es : List Elem) (ops : List Op) (s ell : Int)
    (h : List.Forall₂ Denotes es ops) :
    ladderFactor (.list es) s ell "NP" = .ok (factor s ell ops) := by
  have := ladder_core (.list es) ops s ell "NP" 1 (by simp [convDict]) (by norm_num)
    (h.imp (fun _ _ => denotes_opDict))
  rw [this]; simp

/-- C10.  The same for a string. -/
theorem ladder_factor_string_NP (str : List Char) (ops : List Op) (s ell : Int)
    (h : Spells str ops) :
    ladderFactor (.string str) s ell "NP" = .ok (factor s ell ops) := by
  have := ladder_core (.string str) ops s ell "NP" 1 (by simp [convDict]) (by norm_num) (by
    simp only [elements, normalize_spells h]
    clear h
    induction ops with
    | nil => exact .nil
    | cons o ops ih => exact .cons (by cases o <;> decide) ih)
  rw [this]; simp

/-- C10.  The GHP convention multiplies the result by `(1/√2)^n`, for `n` operations. -/
theorem ladder_factor_GHP (str : List Char) (ops : List Op) (s ell : Int) (h : Spells str ops) :
    ladderFactor (.string str) s ell "GHP" =
      .ok ((1 / Real.sqrt 2) ^ ops.length * factor s ell ops) := by
  have := ladder_core (.string str) ops s ell "GHP" (1 / 2) (by simp [convDict]) (by norm_num) (by
    simp only [elements, normalize_spells h]
    clear h
    induction ops with
    | nil => exact .nil
    | cons o ops ih => exact .cons (by cases o <;> decide) ih)
  rw [this, Real.sqrt_div' _ (by norm_num), Real.sqrt_one]

/-- C10.  A string that does not spell a sequence of operations is refused. -/
theorem ladder_factor_rejects (str : List Char) (s ell : Int) (conv : String)
    (h : ¬ ∃ ops, Spells str ops) : ladderFactor (.string str) s ell conv = .error .valueError := by
  unfold ladderFactor
  apply if_neg
  intro hall
  apply h
  apply spells_of_valid
  intro c hc
  rw [List.all_eq_true] at hall
  exact hall (.str [c]) (List.mem_map.mpr ⟨c, hc, rfl⟩)

/-- C10.  A list with an unknown element is refused. -/
theorem ladder_factor_rejects_list (es : List Elem) (s ell : Int) (conv : String)
    (h : ∃ e ∈ es, ∀ o, ¬ Denotes e o) : ladderFactor (.list es) s ell conv = .error .valueError := by
  obtain ⟨e, he, ho⟩ := h
  unfold ladderFactor
  apply if_neg
  intro hall
  rw [List.all_eq_true] at hall
  obtain ⟨o, hd⟩ := denotes_of_opDict (hall e he)
  exact ho o hd

/-- C10.  Unknown conventions are refused. -/
theorem ladder_factor_rejects_convention (ops : Operations) (s ell : Int) (conv : String)
    (h : conv ≠ "NP" ∧ conv ≠ "GHP") : ladderFactor ops s ell conv = .error .valueError := by
  unfold ladderFactor
  simp only [convDict, if_neg h.1, if_neg h.2, ite_self]

/-- C10.  Applying two sequences one after the other is applying their concatenation: the factor
of `ops1 ++ ops2` is the factor of `ops2` at `s` times that of `ops1` at the spin reached. -/
theorem factor_append (ops1 ops2 : List Op) (s ell : Int) :
    factor s ell (ops1 ++ ops2) = factor (spinAfter s ops2) ell ops1 * factor s ell ops2 ∧
      spinAfter s (ops1 ++ ops2) = spinAfter (spinAfter s ops2) ops1 := by
  induction ops1 with
  | nil => simp [factor, spinAfter]
  | cons o ops ih =>
    simp only [List.cons_append, factor, spinAfter, ih.1, ih.2]
    exact ⟨by ring, trivial⟩

theorem factor_two (s ell : Int) (a b : Op) :
    factor s ell [a, b] = single (s + b.shift) ell a * single s ell b := by
  show single (s + b.shift) ell a * (single s ell b * 1) = _
  rw [mul_one]

theorem single_eth (s l : Int) (h : |s| ≤ l) :
    single s l .eth = Real.sqrt (((l : ℝ) - s) * (l + s + 1)) := if_pos h
theorem single_ethbar (s l : Int) (h : |s| ≤ l) :
    single s l .ethbar = -Real.sqrt (((l : ℝ) + s) * (l - s + 1)) := if_pos h
theorem single_zero (s l : Int) (h : ¬ |s| ≤ l) (o : Op) : single s l o = 0 := by
  cases o <;> exact if_neg h

theorem factor_ethbar_eth (s ell : Int) (h : |s| ≤ ell) :
    factor s ell [.ethbar, .eth] = -(((ell : ℝ) - s) * (ell + s + 1)) := by
  have h' := abs_le.mp h
  have h1 : (0 : ℝ) ≤ (ell : ℝ) - s := by
    have : 0 ≤ ell - s := by omega
    exact_mod_cast this
  have h2 : (0 : ℝ) ≤ (ell : ℝ) + s := by
    have : 0 ≤ ell + s := by omega
    exact_mod_cast this
  rw [factor_two, single_eth s ell h]
  by_cases c : |s + Op.eth.shift| ≤ ell
  · rw [single_ethbar _ _ c]
    simp only [Op.shift]
    push_cast
    rw [show ((ell : ℝ) + (s + 1)) * (ell - (s + 1) + 1) = ((ell : ℝ) - s) * (ell + s + 1) by ring,
      neg_mul, Real.mul_self_sqrt (by positivity)]
  · rw [single_zero _ _ c]
    have : s = ell := by simp only [Op.shift] at c; rw [abs_le] at c; omega
    subst this; simp

theorem factor_eth_ethbar (s ell : Int) (h : |s| ≤ ell) :
    factor s ell [.eth, .ethbar] = -(((ell : ℝ) + s) * (ell - s + 1)) := by
  have h' := abs_le.mp h
  have h1 : (0 : ℝ) ≤ (ell : ℝ) - s := by
    have : 0 ≤ ell - s := by omega
    exact_mod_cast this
  have h2 : (0 : ℝ) ≤ (ell : ℝ) + s := by
    have : 0 ≤ ell + s := by omega
    exact_mod_cast this
  rw [factor_two, single_ethbar s ell h]
  by_cases c : |s + Op.ethbar.shift| ≤ ell
  · rw [single_eth _ _ c]
    simp only [Op.shift]
    push_cast
    rw [show ((ell : ℝ) - (s + -1)) * (ell + (s + -1) + 1) = ((ell : ℝ) + s) * (ell - s + 1) by ring,
      mul_neg, Real.mul_self_sqrt (by positivity)]
  · rw [single_zero _ _ c]
    have : s = -ell := by simp only [Op.shift] at c; rw [abs_le] at c; omega
    subst this; simp

/-- C10.  `ethbar eth` on spin weight `s` multiplies by `-(ell-s)(ell+s+1)`. -/
theorem ethbar_eth (s ell : Int) (h : |s| ≤ ell) :
    ladderFactor (.string ['-', '+']) s ell "NP" = .ok (-(((ell : ℝ) - s) * (ell + s + 1))) := by
  rw [ladder_factor_string_NP ['-', '+'] [.ethbar, .eth] _ _
    (Spells.cons ['-'] ['+'] _ _ (by decide) (Spells.cons ['+'] [] _ _ (by decide) Spells.nil)),
    factor_ethbar_eth s ell h]

/-- C10.  `[ethbar, eth] = 2 s` on spin weight `s`. -/
theorem eth_commutator (s ell : Int) (h : |s| ≤ ell) :
    factor s ell [.ethbar, .eth] - factor s ell [.eth, .ethbar] = 2 * s := by
  rw [factor_ethbar_eth s ell h, factor_eth_ethbar s ell h]; ring

/-- C10.  As soon as the spin weight exceeds `ell` in magnitude at any stage before the last
operation, the mode is annihilated. -/
theorem factor_annihilates (ops1 ops2 : List Op) (o : Op) (s ell : Int)
    (h : ell < |spinAfter s ops2|) : factor s ell (ops1 ++ o :: ops2) = 0 := by
  rw [(factor_append ops1 (o :: ops2) s ell).1]
  have : single (spinAfter s ops2) ell o = 0 := by
    exact single_zero _ _ (not_le.mpr h) o
  simp [factor, this]

/-- C10.  `apply_eth` multiplies every mode of degree `ell` by the factor of `ell` (and raises
exactly when the factor cannot be computed). -/
theorem apply_eth_spec (ops : Operations) (s ellMin ellMax : Int) (conv : String) (row : Row ℂ)
    (f : Int → ℝ) (hf : ∀ ell, ladderFactor ops s ell conv = .ok (f ell)) :
    ∃ out, applyEth ops s ellMin ellMax conv row = .ok out ∧
      ∀ ell m, ellMin ≤ ell → ell ≤ ellMax → |m| ≤ ell →
        out (lmIndex ell m ellMin) = row (lmIndex ell m ellMin) * (f ell : ℂ) := by
  let step : Row ℂ → Int → Row ℂ := fun out ell =>
    out.assign ((pyRange (-ell) (ell + 1)).map fun m => lmIndex ell m ellMin)
      (((pyRange (-ell) (ell + 1)).map fun m => lmIndex ell m ellMin).map fun i => out i * (f ell : ℂ))
  have hfold : ∀ (L : List Int) (r : Row ℂ), L.foldlM (fun out ell => do
      let g ← ladderFactor ops s ell conv
      let idx := (pyRange (-ell) (ell + 1)).map fun m => lmIndex ell m ellMin
      pure (out.assign idx (idx.map fun i => out i * (g : ℂ)))) r = (.ok (L.foldl step r) : Py _) := by
    intro L
    induction L with
    | nil => intro r; rfl
    | cons e L ih =>
      intro r
      rw [List.foldlM_cons, List.foldl_cons, hf e]
      exact ih _
  refine ⟨_, hfold _ _, ?_⟩
  intro ell m h1 h2 hm
  rw [abs_le] at hm
  have hstep : ∀ (out : Row ℂ) (e e' m' : Int), -e' ≤ m' ∧ m' ≤ e' →
      step out e (lmIndex e' m' ellMin) =
        if e' = e then out (lmIndex e' m' ellMin) * (f e : ℂ) else out (lmIndex e' m' ellMin) := by
    intro out e e' m' hm'
    have := Verif.Parity.assign_lm out e ellMin (fun _ => true)
      (fun m => out (lmIndex e m ellMin) * (f e : ℂ)) e' m' hm'
    simp only [Verif.Parity.lmIndices, List.filter_true, and_true] at this
    show out.assign _ _ _ = _
    rw [List.map_map]
    refine Eq.trans this ?_
    split
    · rename_i he; rw [he]
    · rfl
  -- each ell is visited once
  have keep : ∀ (L : List Int) (r : Row ℂ), ell ∉ L →
      L.foldl step r (lmIndex ell m ellMin) = r (lmIndex ell m ellMin) := by
    intro L
    induction L with
    | nil => intros; rfl
    | cons e L ih =>
      intro r hn
      rw [List.foldl_cons, ih _ (fun h => hn (by simp [h])), hstep _ _ _ _ hm, if_neg]
      rintro rfl; exact hn (by simp)
  have main : ∀ (L : List Int) (r : Row ℂ), L.Nodup → ell ∈ L →
      L.foldl step r (lmIndex ell m ellMin) = r (lmIndex ell m ellMin) * (f ell : ℂ) := by
    intro L
    induction L with
    | nil => intro r _ h; cases h
    | cons e L ih =>
      intro r hn hmem
      obtain ⟨n1, n2⟩ := List.nodup_cons.mp hn
      rw [List.foldl_cons]
      rcases List.mem_cons.mp hmem with rfl | hmem'
      · rw [keep _ _ n1, hstep _ _ _ _ hm, if_pos rfl]
      · rw [ih _ n2 hmem', hstep _ _ _ _ hm, if_neg]
        rintro rfl; exact n1 hmem'
  exact main _ _ (pyRange_nodup _ _) (mem_pyRange.mpr (by omega))

-- The mixed spelling "ð̅ð+" of ethbar eth eth, on spin weight -2.
example : Spells ['ð', Char.ofNat 0x305, 'ð', '+'] [.ethbar, .eth, .eth] :=
  Spells.cons ['ð', Char.ofNat 0x305] _ _ _ (by decide)
    (Spells.cons ['ð'] _ _ _ (by decide) (Spells.cons ['+'] _ _ _ (by decide) Spells.nil))
example : List.Forall₂ Denotes [.int (-1), .str ['+']] [.ethbar, .eth] := by
  simp [Denotes]
example : ¬ ∃ ops, Spells ['x'] ops := by
  rintro ⟨ops, h⟩
  have := normalize_spells h
  cases ops with
  | nil => simp [replaceBar, replaceEth] at this
  | cons o ops =>
    cases o <;> simp [replaceBar, replaceEth, Op.sym, ethChar] at this
-- A spin-2 mode of degree 2 is annihilated by eth followed by anything.
example : (2 : Int) < |spinAfter 2 [.eth]| := by decide

end Verif.Props.Ladder
