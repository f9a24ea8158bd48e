import Verif.Props.FiniteRadius
import Verif.Spec.OuterRadius
import Mathlib.Data.List.Sort
import Mathlib.Algebra.Order.Floor.Semifield

/-!
# C83: which finite-radius data are read, which are the outermost, and their common times
-/

namespace Verif.Props.OuterRadius
open Verif Verif.FiniteRadius Verif.Spec.OuterRadius

/-! ## Formats -/

/-- C83.  A file with groups is read if its `.json` file names one of the rpdmb formats, and rejected otherwise. -/
theorem format_spec_partial (sxs : Option String) :
    (∀ s, sxs = some s → s ∈ rpdmbFormats → format sxs = .ok .rpdmb) ∧ ((∀ s, sxs = some s → s ∉ rpdmbFormats) → format sxs = .error .valueError) := by
  cases sxs with
  | none => exact ⟨fun s h => (by cases h), fun _ => rfl⟩
  | some s =>
    constructor
    · intro s' h hs
      injection h with h
      subst h
      simp [format, hs]
    · intro h
      have := h s rfl
      simp [format, this]

/-- C83.  Every format of the rpxmb family, though listed as known, is rejected. -/
theorem rpxmb_rejected : (∀ s ∈ rpxmbFormats, format (some s) = .error .valueError) ∧ ∀ sxs, format sxs ≠ .ok .rpxmb := by
  constructor
  · decide
  · intro sxs
    cases sxs with
    | none => simp [format]
    | some s => by_cases c : s ∈ rpdmbFormats <;> simp [format, c]

/-! ## The outermost radius -/

theorem sorted_perm (val : Str → ℝ) (radii : List Str) : (sortedIndices val radii).Perm (List.range radii.length) := List.mergeSort_perm _ _

theorem outer_spec (val : Str → ℝ) (radii : List Str) (h : radii ≠ []) :
    ∃ i, outer val radii = .ok i ∧ i < radii.length ∧ ∀ j < radii.length, val (radii.getD j []) ≤ val (radii.getD i []) := by
  have hp := sorted_perm val radii
  have hs : (sortedIndices val radii).Pairwise fun i j => decide (val (radii.getD i []) ≤ val (radii.getD j [])) = true :=
    List.pairwise_mergeSort (fun a b c h1 h2 => by simp only [decide_eq_true_eq] at *; exact h1.trans h2)
      (fun a b => by simp only [Bool.or_eq_true, decide_eq_true_eq]; exact le_total _ _) _
  cases hl : (sortedIndices val radii).getLast? with
  | none =>
    rw [List.getLast?_eq_none_iff] at hl
    rw [hl] at hp
    have := hp.length_eq
    simp at this
    exact absurd (List.eq_nil_of_length_eq_zero this.symm) h
  | some i =>
    refine ⟨i, by rw [outer, hl], ?_, ?_⟩
    · have := hp.mem_iff.mp (List.mem_of_getLast? hl)
      simpa using this
    · intro j hj
      have hj' : j ∈ sortedIndices val radii := hp.mem_iff.mpr (by simpa using hj)
      obtain ⟨ys, hys⟩ := List.getLast?_eq_some_iff.mp hl
      rw [hys] at hj' hs
      rw [List.mem_append] at hj'
      rcases hj' with c | c
      · have := (List.pairwise_append.mp hs).2.2 j c i (by simp)
        simpa using this
      · rw [List.mem_singleton] at c
        rw [c]

theorem outer_unique (val : Str → ℝ) (radii : List Str) (i : Nat) (hi : i < radii.length) (h : ∀ j < radii.length, j ≠ i → val (radii.getD j []) < val (radii.getD i [])) :
    outer val radii = .ok i := by
  obtain ⟨k, e, hk, hm⟩ := outer_spec val radii (by rintro rfl; simp at hi)
  by_cases c : k = i
  · rw [e, c]
  · exact absurd (hm i hi) (not_le.mpr (h k hk c))

theorem filterMap_all (names : List Str) (h : ∀ n ∈ names, ∃ r, radius n = some r) :
    (names.filterMap radius).length = names.length ∧ ∀ (i : Nat) n, names[i]? = some n → (names.filterMap radius)[i]? = radius n := by
  induction names with
  | nil => simp
  | cons a l ih =>
    obtain ⟨r, hr⟩ := h a (by simp)
    obtain ⟨l1, l2⟩ := ih fun n hn => h n (by simp [hn])
    rw [List.filterMap_cons_some hr]
    refine ⟨by simp [l1], ?_⟩
    intro i n hn
    cases i with
    | zero => simp at hn; subst hn; simp [hr]
    | succ i => simp at hn ⊢; exact l2 i n hn

/-- C83.  If no radii are asked for, all waveforms are read, and the one whose frame is used has the largest radius. -/
theorem outer_of_all (search : Str → Str → Bool) (val : Str → ℝ) (names : List Str) (h0 : names ≠ []) (h : ∀ n ∈ names, ∃ r, radius n = some r) :
    select search names .empty = .ok (names, names.filterMap radius) ∧
    ∃ name r, outerName search val names .empty = .ok name ∧ name ∈ names ∧ radius name = some r ∧ ∀ n ∈ names, ∀ r', radius n = some r' → val r' ≤ val r := by
  refine ⟨rfl, ?_⟩
  obtain ⟨l1, l2⟩ := filterMap_all names h
  obtain ⟨i, e, hi, hm⟩ := outer_spec val (names.filterMap radius) (by
    intro c; rw [c] at l1; exact h0 (List.eq_nil_of_length_eq_zero l1.symm))
  have hi' : i < names.length := by omega
  obtain ⟨r, hr⟩ := h names[i] (List.getElem_mem _)
  have gi := l2 i _ (List.getElem?_eq_getElem hi')
  rw [hr] at gi
  refine ⟨names[i], r, ?_, List.getElem_mem _, hr, ?_⟩
  · simp only [outerName, select, ok_bind, e, List.getElem?_eq_getElem hi']
    rfl
  · intro n hn r' hr'
    obtain ⟨j, hj, rfl⟩ := List.mem_iff_getElem.mp hn
    have gj := l2 j _ (List.getElem?_eq_getElem hj)
    rw [hr'] at gj
    have := hm j (by omega)
    simpa [List.getD_eq_getElem?_getD, gi, gj] using this

/-- C83.  Integers, documented as indices of the waveforms to use, never work. -/
theorem integers_rejected (search : Str → Str → Bool) (names : List Str) (i : Int) (l : List Int) :
    ∃ e, select search names (.ints i l) = .error e ∧ ((∀ k ∈ i :: l, 0 ≤ k ∧ k < names.length) → e = .typeError) := by
  cases hm : (i :: l).mapM (pyGet names) with
  | ok x => exact ⟨.typeError, by simp only [select, hm, ok_bind], fun _ => rfl⟩
  | error e =>
    refine ⟨e, by simp only [select, hm, error_bind], fun hk => ?_⟩
    exfalso
    have : ∀ l : List Int, (∀ k ∈ l, 0 ≤ k ∧ k < names.length) → ∃ x, l.mapM (pyGet names) = .ok x := by
      intro l
      induction l with
      | nil => intro _; exact ⟨[], rfl⟩
      | cons a l ih =>
        intro h
        obtain ⟨x, hx⟩ := ih fun k hk => h k (by simp [hk])
        obtain ⟨h1, h2⟩ := h a (by simp)
        have hlt : a.toNat < names.length := by omega
        refine ⟨names[a.toNat] :: x, ?_⟩
        rw [List.mapM_cons, hx]
        simp only [pyGet, if_neg (not_lt.mpr h1), List.getElem?_eq_getElem hlt]
        rfl
    obtain ⟨x, hx⟩ := this _ hk
    rw [hx] at hm
    cases hm

theorem selected (search : Str → Str → Bool) (R : List Str) (name : Str) :
    (R.filterMap fun p => if search p name then some name else none) = (R.filter fun p => search p name).map fun _ => name := by
  induction R with
  | nil => rfl
  | cons a l ih =>
    by_cases c : search a name = true
    · simp only [List.filterMap_cons, List.filter_cons, c, if_true, List.map_cons, ih]
    · simp only [List.filterMap_cons, List.filter_cons, c, Bool.false_eq_true, if_false, ih]

theorem aligned_select (search : Str → Str → Bool) (R : List Str) {names rs : List Str} (h : Aligned search R names rs) :
    (names.flatMap fun name => R.filterMap fun p => if search p name then some name else none).length = rs.length ∧
    ∀ (i : Nat) (r : Str), rs[i]? = some r → ∃ n, (names.flatMap fun name => R.filterMap fun p => if search p name then some name else none)[i]? = some n ∧ n ∈ names ∧ search r n = true := by
  induction h with
  | nil => simp
  | skip name names rs hr h ih =>
    simp only [List.flatMap_cons, selected, hr, List.map_nil, List.nil_append]
    simp only [selected] at ih
    refine ⟨ih.1, fun i r hi => ?_⟩
    obtain ⟨n, a, b, c⟩ := ih.2 i r hi
    exact ⟨n, a, by simp [b], c⟩
  | take name r names rs hr h ih =>
    simp only [List.flatMap_cons, selected, hr, List.map_cons, List.map_nil, List.singleton_append]
    simp only [selected] at ih
    refine ⟨by rw [List.length_cons, ih.1, List.length_cons], fun i r' hi => ?_⟩
    cases i with
    | zero =>
      simp at hi
      subst hi
      have : r ∈ R.filter fun p => search p name := by rw [hr]; simp
      exact ⟨name, by simp, by simp, (List.mem_filter.mp this).2⟩
    | succ i =>
      simp at hi
      obtain ⟨n, a, b, c⟩ := ih.2 i r' hi
      exact ⟨n, by simpa using a, by simp [b], c⟩

/-- C83.  If the radii are strings in the order of the file, each of which finds one waveform, then these are read, and the one whose frame is used has the largest radius. -/
theorem outer_of_strings_partial (search : Str → Str → Bool) (val : Str → ℝ) (names : List Str) (r₀ : Str) (l : List Str) (h : Aligned search (r₀ :: l) names (r₀ :: l)) :
    ∃ ns name r, select search names (.strs r₀ l) = .ok (ns, r₀ :: l) ∧ ns.length = (r₀ :: l).length ∧ outerName search val names (.strs r₀ l) = .ok name ∧ name ∈ names ∧
      r ∈ r₀ :: l ∧ search r name = true ∧ ∀ r' ∈ r₀ :: l, val r' ≤ val r := by
  obtain ⟨h1, h2⟩ := aligned_select search (r₀ :: l) h
  obtain ⟨i, e, hi, hm⟩ := outer_spec val (r₀ :: l) (by simp)
  obtain ⟨n, g, hn, hsr⟩ := h2 i _ (List.getElem?_eq_getElem hi)
  refine ⟨_, n, (r₀ :: l)[i], rfl, h1, ?_, hn, List.getElem_mem _, hsr, ?_⟩
  · simp only [outerName, select, ok_bind, e, g]
    rfl
  · intro r' hr'
    obtain ⟨j, hj, rfl⟩ := List.mem_iff_getElem.mp hr'
    have := hm j hj
    simpa [List.getD_eq_getElem?_getD, List.getElem?_eq_getElem hi, List.getElem?_eq_getElem hj] using this

/-- `re.search` for a pattern without special characters. -/
def contains (p n : Str) : Bool := decide (p <:+: n)

def r100 : Str := ['0', '1', '0', '0']
def r200 : Str := ['0', '2', '0', '0']
def n100 : Str := ['R', '0', '1', '0', '0', '.', 'd', 'i', 'r']
def n200 : Str := ['R', '0', '2', '0', '0', '.', 'd', 'i', 'r']

/-- C83.  If the radii are not in the order of the file, then the frame is that of the wrong waveform: here, of the innermost one. -/
theorem wrong_outer (val : Str → ℝ) (h1 : val r100 = 100) (h2 : val r200 = 200) :
    outerName contains val [n100, n200] (.strs r200 [r100]) = .ok n100 ∧ radius n100 = some r100 ∧ radius n200 = some r200 := by
  refine ⟨?_, by decide, by decide⟩
  have e : outer val [r200, r100] = .ok 0 := by
    apply outer_unique
    · simp
    · intro j hj hne
      have : j = 1 := by simp at hj; omega
      subst this
      show val r100 < val r200
      rw [h1, h2]; norm_num
  have es : select contains [n100, n200] (.strs r200 [r100]) = .ok ([n100, n200], [r200, r100]) := by
    simp only [select, Except.ok.injEq, Prod.mk.injEq, and_true]
    decide
  simp only [outerName, es, ok_bind, e]
  rfl

example : Aligned contains [r100, r200] [n100, n200] [r100, r200] := by
  refine .take _ _ _ _ (by decide) (.take _ _ _ _ (by decide) .nil)

/-- C83.  A pattern that finds two waveforms leaves one of them out of the common frame. -/
theorem not_rotated (val : Str → ℝ) :
    ∃ (names : List Str) (req : Request) (ns radii : List Str) (i : Nat), select contains names req = .ok (ns, radii) ∧ i < ns.length ∧ i ∉ rotated val radii := by
  refine ⟨[n100, ['R', '0', '2', '1', '0', '0', '.', 'd', 'i', 'r']], .strs ['1', '0', '0'] [], [n100, ['R', '0', '2', '1', '0', '0', '.', 'd', 'i', 'r']], [['1', '0', '0']], 1, ?_, by simp, ?_⟩
  · simp only [select, Except.ok.injEq, Prod.mk.injEq, and_true]
    decide
  · intro h
    have := (sorted_perm val [['1', '0', '0']]).mem_iff.mp h
    simp at this

/-! ## The common times -/

open Verif.Intersection Verif.Spec.Intersection in
/-- What a successful `intersection` returns. -/
theorem intersection_sound (t1 t2 : List ℝ) (hs1 : t1.Pairwise (· < ·)) (hs2 : t2.Pairwise (· < ·)) (s lo hi : Option ℝ) (out : List ℝ) (h : intersection t1 t2 s lo hi = .ok out) :
    ∃ a b z1 z2, t1.head? = some a ∧ t2.head? = some b ∧ t1.getLast? = some z1 ∧ t2.getLast? = some z2 ∧ out.Pairwise (· < ·) ∧
      (∀ x ∈ out, a ≤ x ∧ b ≤ x ∧ x < z1 ∧ x < z2 ∧ (∀ y, lo = some y → y ≤ x) ∧ ∀ y, hi = some y → x < y) ∧
      ∀ x, out.head? = some x → x = a ∨ x = b ∨ lo = some x := by
  match t1, t2, h with
  | [], _, h => cases h
  | _ :: _, [], h => cases h
  | a :: l1, b :: l2, h =>
    obtain ⟨step, hstep⟩ : ∃ step, intersection (a :: l1) (b :: l2) (some step) lo hi = .ok out := by
      simp only [intersection] at h
      cases hr : resolveStep (a :: l1) (b :: l2) s with
      | error e =>
        simp only [hr, error_bind] at h
        split at h
        · cases h
        · split at h <;> cases h
      | ok step =>
        refine ⟨step, ?_⟩
        have hr' : resolveStep (a :: l1) (b :: l2) (some step) = .ok step := rfl
        simp only [hr] at h
        simp only [intersection, hr']
        exact h
    have hL : IsLatest a b lo (startTime a b lo) := by
      cases lo with
      | none => exact ⟨(max_choice a b).imp id Or.inl, le_max_left _ _, le_max_right _ _, fun x hx => by cases hx⟩
      | some m =>
        refine ⟨?_, (le_max_left a b).trans (le_max_left _ _), (le_max_right a b).trans (le_max_left _ _), fun x hx => by injection hx with hx; rw [← hx]; exact le_max_right _ _⟩
        rcases max_choice (max a b) m with c | c
        · rcases max_choice a b with c' | c'
          · left; exact c.trans c'
          · right; left; exact c.trans c'
        · right; right; exact congrArg some c.symm
    have hE : IsEarliest ((a :: l1).getLast (by simp)) ((b :: l2).getLast (by simp)) hi (endTime ((a :: l1).getLast (by simp)) ((b :: l2).getLast (by simp)) hi) := by
      generalize (a :: l1).getLast (by simp) = u
      generalize (b :: l2).getLast (by simp) = v
      cases hi with
      | none => exact ⟨(min_choice u v).imp id Or.inl, min_le_left _ _, min_le_right _ _, fun x hx => by cases hx⟩
      | some m =>
        refine ⟨?_, (min_le_left _ _).trans (min_le_left u v), (min_le_left _ _).trans (min_le_right u v), fun x hx => by injection hx with hx; rw [← hx]; exact min_le_right _ _⟩
        rcases min_choice (min u v) m with c | c
        · rcases min_choice u v with c' | c'
          · left; exact c.trans c'
          · right; left; exact c.trans c'
        · right; right; exact congrArg some c.symm
    have z1 : (a :: l1).getLast? = some ((a :: l1).getLast (by simp)) := List.getLast?_eq_some_getLast _
    have z2 : (b :: l2).getLast? = some ((b :: l2).getLast (by simp)) := List.getLast?_eq_some_getLast _
    have := Props.Intersection.intersection_spec (a :: l1) (b :: l2) hs1 hs2 a b _ _ rfl rfl z1 z2 step lo hi _ _ hL hE
    split at this
    · rw [hstep] at this; cases this
    · obtain ⟨out', e, hg⟩ := this
      rw [hstep] at e
      injection e with e
      subst e
      obtain ⟨g1, g2, g3, g4, -⟩ := Props.Intersection.intersection_grid _ _ hs1 hs2 _ _ _ _ hg
      refine ⟨a, b, _, _, rfl, rfl, z1, z2, g1, ?_, ?_⟩
      · intro x hx
        obtain ⟨x1, x2⟩ := g2 x hx
        exact ⟨hL.2.1.trans x1, hL.2.2.1.trans x1, x2.trans_le hE.2.1, x2.trans_le hE.2.2.1, fun y hy => (hL.2.2.2 y hy).trans x1, fun y hy => x2.trans_le (hE.2.2.2 y hy)⟩
      · intro x hx
        by_cases c : startTime a b lo < endTime ((a :: l1).getLast (by simp)) ((b :: l2).getLast (by simp)) hi
        · have := g3 c
          rw [hx] at this
          injection this with this
          rw [this]
          exact hL.1
        · rw [g4.mpr (not_lt.mp c)] at hx
          cases hx

theorem fold_sound : ∀ (ts : List (List ℝ)) (T₀ T : List ℝ), T₀.Pairwise (· < ·) → (∀ t ∈ ts, t.Pairwise (· < ·)) →
    ts.foldlM (fun T t => Intersection.intersection T t none none none) T₀ = .ok T →
    T.Pairwise (· < ·) ∧ (∀ x ∈ T, (∃ a, T₀.head? = some a ∧ a ≤ x) ∧ (∃ z, T₀.getLast? = some z ∧ x ≤ z) ∧ ∀ t ∈ ts, ∃ b z, t.head? = some b ∧ t.getLast? = some z ∧ b ≤ x ∧ x < z) ∧
      ∀ x, T.head? = some x → T₀.head? = some x ∨ ∃ t ∈ ts, t.head? = some x
  | [], T₀, T, h0, _, h => by
    have : T₀ = T := by simpa [pure, Except.pure] using h
    subst this
    refine ⟨h0, fun x hx => ⟨?_, ?_, by simp⟩, fun x hx => Or.inl hx⟩
    · cases T₀ with
      | nil => simp at hx
      | cons a l =>
        refine ⟨a, rfl, ?_⟩
        rcases List.mem_cons.mp hx with c | c
        · rw [c]
        · exact (List.rel_of_pairwise_cons h0 c).le
    · cases hl : T₀.getLast? with
      | none => rw [List.getLast?_eq_none_iff] at hl; rw [hl] at hx; simp at hx
      | some z =>
        refine ⟨z, rfl, ?_⟩
        obtain ⟨ys, hys⟩ := List.getLast?_eq_some_iff.mp hl
        rw [hys] at hx h0
        rcases List.mem_append.mp hx with c | c
        · exact ((List.pairwise_append.mp h0).2.2 x c z (by simp)).le
        · rw [List.mem_singleton] at c; rw [c]
  | t :: ts, T₀, T, h0, hts, h => by
    rw [List.foldlM_cons] at h
    cases h1 : Intersection.intersection T₀ t none none none with
    | error e => rw [h1, error_bind] at h; cases h
    | ok T₁ =>
      rw [h1, ok_bind] at h
      obtain ⟨a, b, z1, z2, ea, eb, ez1, ez2, g1, g2, g3⟩ := intersection_sound T₀ t h0 (hts t (by simp)) none none none T₁ h1
      obtain ⟨f1, f2, f3⟩ := fold_sound ts T₁ T g1 (fun t' ht' => hts t' (by simp [ht'])) h
      refine ⟨f1, fun x hx => ?_, fun x hx => ?_⟩
      · obtain ⟨⟨a', ha', la'⟩, ⟨z', hz', lz'⟩, hrest⟩ := f2 x hx
        have ga := g2 a' (List.mem_of_head? ha')
        have gz := g2 z' (List.mem_of_getLast? hz')
        refine ⟨⟨a, ea, ga.1.trans la'⟩, ⟨z1, ez1, lz'.trans gz.2.2.1.le⟩, fun t' ht' => ?_⟩
        rcases List.mem_cons.mp ht' with c | c
        · subst c
          exact ⟨b, z2, eb, ez2, ga.2.1.trans la', lz'.trans_lt gz.2.2.2.1⟩
        · exact hrest t' c
      · rcases f3 x hx with c | ⟨t', ht', c⟩
        · rcases g3 x c with c' | c' | c'
          · left; rw [ea, c']
          · right; exact ⟨t, by simp, by rw [eb, c']⟩
          · cases c'
        · right; exact ⟨t', by simp [ht'], c⟩

/-- C83.  The common times increase, are within the limits of the arguments and within the times of every waveform, and begin at the latest of their first times and the earliest time allowed. -/
theorem common_times (step E L : ℝ) (hEL : E < L) (ts : List (List ℝ)) (hts : ∀ t ∈ ts, t.Pairwise (· < ·)) (T : List ℝ) (h : commonTimes step E L ts = .ok T) :
    T.Pairwise (· < ·) ∧ (∀ x ∈ T, E ≤ x ∧ x < L ∧ ∀ t ∈ ts, ∃ a z, t.head? = some a ∧ t.getLast? = some z ∧ a ≤ x ∧ x < z) ∧
      ∀ x, T.head? = some x → (x = E ∨ ∃ t ∈ ts, t.head? = some x) ∧ E ≤ x ∧ ∀ t ∈ ts, ∀ a, t.head? = some a → a ≤ x := by
  match ts, h with
  | [], h => cases h
  | t0 :: ts, h =>
    simp only [commonTimes] at h
    cases h1 : Intersection.intersection [E, L] t0 (some step) (some E) (some L) with
    | error e => rw [h1, error_bind] at h; cases h
    | ok T₁ =>
      rw [h1, ok_bind] at h
      obtain ⟨a, b, z1, z2, ea, eb, ez1, ez2, g1, g2, g3⟩ := intersection_sound [E, L] t0 (by simpa using hEL) (hts t0 (by simp)) _ _ _ T₁ h1
      obtain ⟨f1, f2, f3⟩ := fold_sound ts T₁ T g1 (fun t' ht' => hts t' (by simp [ht'])) h
      have bounds : ∀ x ∈ T, E ≤ x ∧ x < L ∧ ∀ t ∈ t0 :: ts, ∃ a z, t.head? = some a ∧ t.getLast? = some z ∧ a ≤ x ∧ x < z := by
        intro x hx
        obtain ⟨⟨a', ha', la'⟩, ⟨z', hz', lz'⟩, hrest⟩ := f2 x hx
        have ga := g2 a' (List.mem_of_head? ha')
        have gz := g2 z' (List.mem_of_getLast? hz')
        refine ⟨(ga.2.2.2.2.1 E rfl).trans la', lz'.trans_lt (gz.2.2.2.2.2 L rfl), fun t' ht' => ?_⟩
        rcases List.mem_cons.mp ht' with c | c
        · subst c
          exact ⟨b, z2, eb, ez2, ga.2.1.trans la', lz'.trans_lt gz.2.2.2.1⟩
        · exact hrest t' c
      refine ⟨f1, bounds, fun x hx => ⟨?_, ?_⟩⟩
      · rcases f3 x hx with c | ⟨t', ht', c⟩
        · rcases g3 x c with c' | c' | c'
          · left; simp at ea; rw [c', ea]
          · right; exact ⟨t0, by simp, by rw [eb, c']⟩
          · left; injection c' with c'; exact c'.symm
        · right; exact ⟨t', by simp [ht'], c⟩
      · have hb := bounds x (List.mem_of_head? hx)
        refine ⟨hb.1, fun t ht a' ha' => ?_⟩
        obtain ⟨a'', z, e1, -, l1, -⟩ := hb.2.2 t ht
        rw [ha'] at e1
        injection e1 with e1
        rw [e1]; exact l1

/-- C83.  All waveforms and radii are taken at the common times; a radius whose time is one of the common times is not changed. -/
theorem set_common_time (spline : List ℝ → List ℝ → ℝ → ℝ) (hspline : ∀ x y, x.Pairwise (· < ·) → x.length = y.length → ∀ (i : Nat) (u v : ℝ), x[i]? = some u → y[i]? = some v → spline x y u = v)
    (interpolate : Wave → List ℝ → Wave) (hint : ∀ W T, (interpolate W T).t = T) (Ws : List (Wave × List ℝ)) (hW : ∀ w ∈ Ws, w.1.t.Pairwise (· < ·) ∧ w.1.t.length = w.2.length)
    (step E L : ℝ) (out : List (Wave × List ℝ)) (h : setCommonTime spline interpolate Ws step E L = .ok out) :
    ∃ T, commonTimes step E L (Ws.map fun w => w.1.t) = .ok T ∧ out.length = Ws.length ∧
      ∀ (i : Nat) w, Ws[i]? = some w → ∃ R, out[i]? = some (interpolate w.1 T, R) ∧ (interpolate w.1 T).t = T ∧ R.length = T.length ∧
        ∀ (j k : Nat) (u v : ℝ), T[j]? = some u → w.1.t[k]? = some u → w.2[k]? = some v → R[j]? = some v := by
  unfold setCommonTime at h
  cases hT : commonTimes step E L (Ws.map fun w => w.1.t) with
  | error e => rw [hT, error_bind] at h; cases h
  | ok T =>
    rw [hT, ok_bind] at h
    injection h with h
    subst h
    refine ⟨T, rfl, by simp, fun i w hi => ⟨T.map (spline w.1.t w.2), by simp [hi], hint _ _, by simp, fun j k u v hj hk hv => ?_⟩⟩
    obtain ⟨p, l⟩ := hW w (List.mem_of_getElem? hi)
    simp only [List.getElem?_map, hj, Option.map_some]
    rw [hspline _ _ p l k u v hk hv]

/-- Non-vacuity: one waveform whose times overlap with the limits has common times. -/
theorem common_times_one (step E L : ℝ) (t : List ℝ) (ht : t.Pairwise (· < ·)) (a z : ℝ) (ha : t.head? = some a) (hz : t.getLast? = some z) (h : max a E < min z L) :
    ∃ T, commonTimes step E L [t] = .ok T ∧ T.head? = some (max a E) := by
  have hEL : E < L := (le_max_right a E).trans_lt (h.trans_le (min_le_right z L))
  have := Props.Intersection.intersection_spec [E, L] t (by simpa using hEL) ht E a L z rfl ha rfl hz step (some E) (some L) (max a E) (min z L)
    ⟨by rcases max_choice a E with c | c <;> rw [c] <;> simp, le_max_right _ _, le_max_left _ _, fun x hx => by injection hx with hx; rw [← hx]; exact le_max_right _ _⟩
    ⟨by rcases min_choice z L with c | c <;> rw [c] <;> simp, min_le_right _ _, min_le_left _ _, fun x hx => by injection hx with hx; rw [← hx]; exact min_le_right _ _⟩
  have haz : a < z := (le_max_left a E).trans_lt (h.trans_le (min_le_left z L))
  rw [if_neg] at this
  · obtain ⟨out, e, hg⟩ := this
    refine ⟨out, ?_, (Props.Intersection.intersection_grid _ _ (by simpa using hEL) ht _ _ _ _ hg).2.2.1 h⟩
    simp only [commonTimes, e, ok_bind, List.foldlM_nil]
    rfl
  · have h1 := le_max_left a E
    have h2 := le_max_right a E
    have h3 := min_le_left z L
    have h4 := min_le_right z L
    push Not
    exact ⟨by linarith, by linarith, by linarith, by linarith⟩

/-! ## The mass -/

theorem argmaxFrom_spec : ∀ (l : List Nat) (i best v : Nat),
    (argmaxFrom l i best v = best ∧ ∀ x ∈ l, x ≤ v) ∨
    ∃ (k y : Nat), argmaxFrom l i best v = i + k ∧ l[k]? = some y ∧ v < y ∧ (∀ x ∈ l, x ≤ y) ∧ ∀ (k' x : Nat), k' < k → l[k']? = some x → x < y
  | [], i, best, v => Or.inl ⟨rfl, by simp⟩
  | x :: l, i, best, v => by
    by_cases c : v < x
    · right
      rw [argmaxFrom, if_pos c]
      rcases argmaxFrom_spec l (i + 1) i x with ⟨e, h⟩ | ⟨k, y, e, g, h1, h2, h3⟩
      · exact ⟨0, x, e, rfl, c, by simpa using h, fun k' _ hk => by omega⟩
      · refine ⟨k + 1, y, by rw [e]; omega, by simpa using g, by omega, ?_, ?_⟩
        · intro x' hx'
          rcases List.mem_cons.mp hx' with c' | c'
          · omega
          · exact h2 x' c'
        · intro k' x' hk hx'
          cases k' with
          | zero => simp at hx'; omega
          | succ k' => exact h3 k' x' (by omega) (by simpa using hx')
    · rw [argmaxFrom, if_neg c]
      rcases argmaxFrom_spec l (i + 1) best v with ⟨e, h⟩ | ⟨k, y, e, g, h1, h2, h3⟩
      · left
        refine ⟨e, ?_⟩
        intro x' hx'
        rcases List.mem_cons.mp hx' with c' | c'
        · omega
        · exact h x' c'
      · right
        refine ⟨k + 1, y, by rw [e]; omega, by simpa using g, h1, ?_, ?_⟩
        · intro x' hx'
          rcases List.mem_cons.mp hx' with c' | c'
          · omega
          · exact h2 x' c'
        · intro k' x' hk hx'
          cases k' with
          | zero => simp at hx'; omega
          | succ k' => exact h3 k' x' (by omega) (by simpa using hx')

theorem bin_lt (lo hi : ℝ) (h : lo < hi) (n : Nat) (hn : 0 < n) (x : ℝ) (h1 : lo ≤ x) (h2 : x ≤ hi) : bin lo hi n x < n := by
  have hle : ⌊(x - lo) / (hi - lo) * n⌋₊ ≤ n := by
    apply Nat.floor_le_of_le
    have : (x - lo) / (hi - lo) ≤ 1 := by rw [div_le_one (by linarith)]; linarith
    have hn' : (0 : ℝ) ≤ n := Nat.cast_nonneg n
    nlinarith
  unfold bin
  split <;> omega

theorem bin_iff (lo hi : ℝ) (h : lo < hi) (n : Nat) (hn : 0 < n) (x : ℝ) (h1 : lo ≤ x) (h2 : x ≤ hi) (k : Nat) (hk : k < n) :
    bin lo hi n x = k ↔ InBin lo ((hi - lo) / n) n k x := by
  have hd : 0 < hi - lo := by linarith
  have hn' : (0 : ℝ) < n := by exact_mod_cast hn
  have hw : 0 < (hi - lo) / n := div_pos hd hn'
  set w := (hi - lo) / n with hwdef
  have ey : (x - lo) / (hi - lo) * n = (x - lo) / w := by rw [hwdef]; field_simp
  have h0 : 0 ≤ (x - lo) / w := div_nonneg (by linarith) hw.le
  have hnw : (n : ℝ) * w = hi - lo := by rw [hwdef]; field_simp
  unfold bin InBin
  rw [ey]
  by_cases c : ⌊(x - lo) / w⌋₊ = n
  · rw [if_pos c]
    have hx : x = hi := by
      have := Nat.floor_le h0
      rw [c, le_div_iff₀ hw] at this
      linarith
    constructor
    · intro e
      have e' : k + 1 = n := by omega
      refine ⟨?_, Or.inr ⟨e', by linarith⟩⟩
      have : (k : ℝ) + 1 = n := by exact_mod_cast e'
      nlinarith
    · rintro ⟨-, c' | ⟨c', -⟩⟩
      · exfalso
        have : ((k : ℝ) + 1) ≤ n := by exact_mod_cast hk
        have := mul_le_mul_of_nonneg_right this hw.le
        linarith
      · omega
  · rw [if_neg c, Nat.floor_eq_iff h0, le_div_iff₀ hw, div_lt_iff₀ hw]
    constructor
    · rintro ⟨a, b⟩
      exact ⟨by linarith, Or.inl (by linarith)⟩
    · rintro ⟨a, b | ⟨-, b⟩⟩
      · exact ⟨by linarith, by linarith⟩
      · exfalso
        apply c
        rw [b, add_sub_cancel_left, mul_div_assoc, div_self hw.ne', mul_one, Nat.floor_natCast]

theorem foldl_min_spec (l : List ℝ) : ∀ a, l.foldl min a ≤ a ∧ (∀ x ∈ l, l.foldl min a ≤ x) ∧ l.foldl min a ∈ a :: l := by
  induction l with
  | nil => intro a; simp
  | cons b l ih =>
    intro a
    obtain ⟨h1, h2, h3⟩ := ih (min a b)
    refine ⟨h1.trans (min_le_left _ _), ?_, ?_⟩
    · intro x hx
      rcases List.mem_cons.mp hx with c | c
      · rw [c]; exact h1.trans (min_le_right _ _)
      · exact h2 x c
    · rw [List.foldl_cons]
      rcases List.mem_cons.mp h3 with c | c
      · rw [c]; rcases min_choice a b with d | d <;> rw [d] <;> simp
      · simp [c]

theorem foldl_max_spec (l : List ℝ) : ∀ a, a ≤ l.foldl max a ∧ (∀ x ∈ l, x ≤ l.foldl max a) ∧ l.foldl max a ∈ a :: l := by
  induction l with
  | nil => intro a; simp
  | cons b l ih =>
    intro a
    obtain ⟨h1, h2, h3⟩ := ih (max a b)
    refine ⟨(le_max_left _ _).trans h1, ?_, ?_⟩
    · intro x hx
      rcases List.mem_cons.mp hx with c | c
      · rw [c]; exact (le_max_right _ _).trans h1
      · exact h2 x c
    · rw [List.foldl_cons]
      rcases List.mem_cons.mp h3 with c | c
      · rw [c]; rcases max_choice a b with d | d <;> rw [d] <;> simp
      · simp [c]

/-- The index that `pickMass` finds is that of the first of the fullest bins. -/
theorem argmax_bins (l : List ℝ) (f : ℝ → Nat) (n : Nat) (hf : ∀ x ∈ l, f x < n) (h0 : l ≠ []) :
    ∃ k < n, argmaxFrom ((List.range n).map fun k => l.countP fun x => f x = k) 0 0 0 = k ∧ (∃ x ∈ l, f x = k) ∧
      (∀ k' < n, (l.countP fun x => f x = k') ≤ l.countP fun x => f x = k) ∧ ∀ k' < k, (l.countP fun x => f x = k') < l.countP fun x => f x = k := by
  have hget : ∀ k < n, ((List.range n).map fun k => l.countP fun x => f x = k)[k]? = some (l.countP fun x => f x = k) := by
    intro k hk; simp [hk]
  rcases argmaxFrom_spec ((List.range n).map fun k => l.countP fun x => f x = k) 0 0 0 with ⟨-, h⟩ | ⟨k, y, e, g, hpos, h2, h3⟩
  · exfalso
    obtain ⟨x, hx⟩ := List.exists_mem_of_ne_nil l h0
    have := h _ (List.mem_of_getElem? (hget (f x) (hf x hx)))
    have hp : 0 < l.countP fun x' => f x' = f x := List.countP_pos_iff.mpr ⟨x, hx, by simp⟩
    omega
  · have hk : k < n := by
      have := (List.getElem?_eq_some_iff.mp g).1
      simpa using this
    rw [hget k hk] at g
    injection g with g
    refine ⟨k, hk, by rw [e]; omega, ?_, ?_, ?_⟩
    · have : 0 < l.countP fun x => f x = k := by omega
      obtain ⟨x, hx, hx'⟩ := List.countP_pos_iff.mp this
      exact ⟨x, hx, by simpa using hx'⟩
    · intro k' hk'
      rw [g]
      exact h2 _ (List.mem_of_getElem? (hget k' hk'))
    · intro k' hk'
      rw [g]
      exact h3 k' _ hk' (hget k' (by omega))

open Classical in
/-- C83.  `pick_Ch_mass` divides the range of the sums of the two masses into as many bins as there are times, and returns the left end of the first of the fullest bins; one of the sums is in this bin. -/
theorem pick_mass_partial (l : List ℝ) (lo hi : ℝ) (hlo : lo ∈ l) (hhi : hi ∈ l) (hl : ∀ x ∈ l, lo ≤ x ∧ x ≤ hi) (h : lo < hi) :
    ∃ k < l.length, pickMass l = .ok (lo + k * ((hi - lo) / l.length)) ∧ (∃ x ∈ l, InBin lo ((hi - lo) / l.length) l.length k x) ∧
      (∀ k' < l.length, (l.countP fun x => InBin lo ((hi - lo) / l.length) l.length k' x) ≤ l.countP fun x => InBin lo ((hi - lo) / l.length) l.length k x) ∧
      ∀ k' < k, (l.countP fun x => InBin lo ((hi - lo) / l.length) l.length k' x) < l.countP fun x => InBin lo ((hi - lo) / l.length) l.length k x := by
  match l, hlo with
  | a :: l, hlo =>
    have e1 : l.foldl min a = lo := by
      obtain ⟨h1, h2, h3⟩ := foldl_min_spec l a
      apply le_antisymm _ (hl _ h3).1
      rcases List.mem_cons.mp hlo with c | c
      · rw [c]; exact h1
      · exact h2 lo c
    have e2 : l.foldl max a = hi := by
      obtain ⟨h1, h2, h3⟩ := foldl_max_spec l a
      apply le_antisymm (hl _ h3).2
      rcases List.mem_cons.mp hhi with c | c
      · rw [c]; exact h1
      · exact h2 hi c
    have ee : edges a l = (lo, hi) := by
      unfold edges
      simp only [e1, e2, if_neg h.ne]
    have hn : 0 < (a :: l).length := by simp
    obtain ⟨k, hk, ek, ⟨x, hx, hxk⟩, hmax, hfirst⟩ := argmax_bins (a :: l) (bin lo hi (a :: l).length) (a :: l).length (fun x hx => bin_lt lo hi h _ hn x (hl x hx).1 (hl x hx).2) (by simp)
    have hc : ∀ k' < (a :: l).length, ((a :: l).countP fun x => decide (InBin lo ((hi - lo) / (a :: l).length) (a :: l).length k' x)) = (a :: l).countP fun x => decide (bin lo hi (a :: l).length x = k') := by
      intro k' hk'
      apply List.countP_congr
      intro x hx
      simp only [decide_eq_true_eq]
      exact (bin_iff lo hi h _ hn x (hl x hx).1 (hl x hx).2 k' hk').symm
    refine ⟨k, hk, ?_, ⟨x, hx, (bin_iff lo hi h _ hn x (hl x hx).1 (hl x hx).2 k hk).mp hxk⟩, ?_, ?_⟩
    · unfold pickMass
      simp only [ee, ek]
      rw [mul_div_assoc]
    · intro k' hk'
      rw [hc k' hk', hc k hk]
      exact hmax k' hk'
    · intro k' hk'
      rw [hc k' (by omega), hc k hk]
      exact hfirst k' hk'

/-- C83.  If the sum of the masses is the same at all times, the result is smaller by half the inverse of the number of times, if this number is odd. -/
theorem pick_constant_mass (m : ℝ) (n : Nat) (hn : 0 < n) : pickMass (List.replicate n m) = .ok (m - (n % 2 : Nat) / (2 * n)) := by
  obtain ⟨n', rfl⟩ : ∃ n', n = n' + 1 := ⟨n - 1, by omega⟩
  rw [List.replicate_succ]
  have e1 : (List.replicate n' m).foldl min m = m := by
    obtain ⟨h1, -, h3⟩ := foldl_min_spec (List.replicate n' m) m
    rcases List.mem_cons.mp h3 with c | c
    · exact c
    · exact List.eq_of_mem_replicate c
  have e2 : (List.replicate n' m).foldl max m = m := by
    obtain ⟨h1, -, h3⟩ := foldl_max_spec (List.replicate n' m) m
    rcases List.mem_cons.mp h3 with c | c
    · exact c
    · exact List.eq_of_mem_replicate c
  have ee : edges m (List.replicate n' m) = (m - 1 / 2, m + 1 / 2) := by
    unfold edges
    simp only [e1, e2, if_true]
  have hlen : (m :: List.replicate n' m).length = n' + 1 := by simp
  have hmem : ∀ x ∈ m :: List.replicate n' m, x = m := by
    intro x hx
    rw [← List.replicate_succ] at hx
    exact List.eq_of_mem_replicate hx
  have hb : bin (m - 1 / 2) (m + 1 / 2) (n' + 1) m = (n' + 1) / 2 := by
    have hfl : ⌊(m - (m - 1 / 2)) / (m + 1 / 2 - (m - 1 / 2)) * ((n' + 1 : Nat) : ℝ)⌋₊ = (n' + 1) / 2 := by
      rw [show (m - (m - 1 / 2)) / (m + 1 / 2 - (m - 1 / 2)) * ((n' + 1 : Nat) : ℝ) = ((n' + 1 : Nat) : ℝ) / ((2 : Nat) : ℝ) by push_cast; ring, Nat.floor_div_natCast, Nat.floor_natCast]
    unfold bin
    rw [hfl, if_neg (by omega)]
  obtain ⟨k, hk, ek, ⟨x, hx, hxk⟩, -, -⟩ := argmax_bins (m :: List.replicate n' m) (bin (m - 1 / 2) (m + 1 / 2) (n' + 1)) (n' + 1)
    (fun x hx => by rw [hmem x hx, hb]; omega) (by simp)
  rw [hmem x hx, hb] at hxk
  unfold pickMass
  simp only [ee, hlen, ek]
  congr 1
  have hdm : (n' + 1) = 2 * k + (n' + 1) % 2 := by omega
  have hdm' : ((n' + 1 : Nat) : ℝ) = 2 * k + ((n' + 1) % 2 : Nat) := by exact_mod_cast hdm
  have hpos : (0 : ℝ) < ((n' + 1 : Nat) : ℝ) := by exact_mod_cast Nat.succ_pos n'
  generalize ((n' + 1) % 2 : Nat) = r at hdm' ⊢
  generalize ((n' + 1 : Nat) : ℝ) = N at hdm' hpos ⊢
  field_simp
  rw [hdm']
  ring

example : pickMass [1, 1, 1] = .ok (5 / 6) := by
  have := pick_constant_mass 1 3 (by norm_num)
  rw [show ([1, 1, 1] : List ℝ) = List.replicate 3 1 by rfl, this]
  norm_num

/-! ## Validation -/

/-- The number of datasets with the name of a mode whose degree is from 2 (1 for `psi1` and `psi3`, 0 for `psi2`) to 199. -/
def numberOfModes (dt : Int) (g : Shapes) : Nat :=
  (g.sets.filter fun s => match SpecFile.search s.1 with
    | some LM => decide ((if dt = Weights.psi3 ∨ dt = Weights.psi1 then 1 else if dt = Weights.psi2 then 0 else 2) ≤ SpecFile.digitsValue LM.1 ∧ SpecFile.digitsValue LM.1 ≤ 199)
    | none => false).length

theorem countModes_eq (dt : Int) (g : Shapes) : countModes (lowest dt) g = numberOfModes dt g := by
  unfold countModes numberOfModes
  congr 2
  funext s
  unfold isMode lowest
  cases SpecFile.search s.1 with
  | none => rfl
  | some LM => simp only [Nat.lt_succ_iff]

/-- C83.  Waveforms that pass the validation have the same number of times in all their datasets and the same number of modes of the degrees of their type. -/
theorem validate_spec (dt : Int) (gs : List Shapes) (h : validate dt gs = .ok true) :
    ∃ n N, ∀ g ∈ gs, g.areal = (n, 2) ∧ g.lapse = (n, 2) ∧ numberOfModes dt g = N ∧ ∀ s ∈ g.sets, ∀ LM, SpecFile.search s.1 = some LM → s.2 = (n, 3) := by
  match gs, h with
  | [], h => cases h
  | g0 :: gs, h =>
    unfold validate at h
    injection h with h
    refine ⟨g0.areal.1, countModes (lowest dt) g0, fun g hg => ?_⟩
    have := List.all_eq_true.mp h g hg
    unfold validateOne at this
    simp only [Bool.and_eq_true, decide_eq_true_eq, List.all_eq_true] at this
    refine ⟨this.1.1.1, this.1.1.2, (countModes_eq dt g) ▸ this.1.2, fun s hs LM hLM => ?_⟩
    have h2 := this.2 s hs
    rw [hLM] at h2
    simpa using h2

/-- `Y_l{l}_m{m}.dat`. -/
def setOf (k : Str × Str) : Str := ['Y', '_', 'l'] ++ k.1 ++ ['_', 'm'] ++ k.2 ++ ['.', 'd', 'a', 't']

/-- The shapes of a waveform with the modes `LM` and `n` times. -/
def shapesOf (n : Nat) (LM : List (Str × Str)) : Shapes := { areal := (n, 2), lapse := (n, 2), sets := LM.map fun k => (setOf k, (n, 3)) }

/-- The modes of degree 2. -/
def modes2 : List (Str × Str) := [(['2'], ['-', '2']), (['2'], ['-', '1']), (['2'], ['0']), (['2'], ['1']), (['2'], ['2'])]

/-- The modes of degree 0 and 1. -/
def modes01 : List (Str × Str) := [(['0'], ['0']), (['1'], ['-', '1']), (['1'], ['0']), (['1'], ['1'])]

set_option maxRecDepth 20000 in
/-- C83.  Modes of degrees that the type cannot have are not counted, so that waveforms with different modes pass. -/
theorem different_modes_pass : validate Weights.h [shapesOf 7 modes2, shapesOf 7 (modes01 ++ modes2)] = .ok true := by
  decide

end Verif.Props.OuterRadius
