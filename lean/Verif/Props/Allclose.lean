import Verif.Spec.Allclose

/-!
# Properties of `_allclose` (C43)
-/

namespace Verif.Props.Allclose

open Verif Verif.Allclose Verif.Allclose.Spec

theorem bshape_self (s : List Nat) : broadcastShape s s = some s := by
  induction s with
  | nil => rfl
  | cons x s ih => simp [broadcastShape, ih]

theorem project_self (s idx : List Nat) (h : Index s idx) : project s idx = idx := by
  unfold Index at h
  induction h with
  | nil => rfl
  | @cons i x idx s h1 _ ih =>
    unfold project
    rw [ih]
    split_ifs with hx
    · rw [show i = 0 by omega]
    · rfl

open Classical in
theorem np_same (rtol atol : ℝ) (a b : Arr) (h : a.shape = b.shape) : ∃ r, npAllclose rtol atol a b = .ok r ∧ (r = true ↔ Near rtol atol a b) := by
  unfold npAllclose
  rw [← h, bshape_self]
  refine ⟨_, rfl, ?_⟩
  rw [decide_eq_true_iff]
  unfold Near
  constructor
  · refine fun H => ⟨h, fun idx hi => ?_⟩
    have := H idx hi
    rw [project_self _ _ hi] at this
    unfold close at this
    split at this
    · rename_i x y hx hy
      exact ⟨x, y, hx, hy, this⟩
    · exact this.elim
  · rintro ⟨-, H⟩ idx hi
    obtain ⟨x, y, hx, hy, hxy⟩ := H idx hi
    rw [project_self _ _ hi, hx, hy]
    exact hxy

theorem near_float (rtol atol : ℝ) (a b : QuatArr) : Near rtol atol a.asFloat b.asFloat ↔ NearQ rtol atol a b := by
  have key : ∀ x y : ℝ, ‖((x : ℝ) : ℂ) - ((y : ℝ) : ℂ)‖ ≤ atol + rtol * ‖((y : ℝ) : ℂ)‖ ↔ |x - y| ≤ atol + rtol * |y| := by
    intro x y
    rw [← Complex.ofReal_sub, Complex.norm_real, Complex.norm_real, Real.norm_eq_abs, Real.norm_eq_abs]
  unfold Near NearQ
  constructor
  · rintro ⟨h1, h2⟩
    refine ⟨by simpa [QuatArr.asFloat] using h1, fun idx hi part hp => ?_⟩
    have use : ∀ k < 4, ∃ x y, a.asFloat.get (k :: idx) = some x ∧ b.asFloat.get (k :: idx) = some y ∧ ‖x - y‖ ≤ atol + rtol * ‖y‖ := fun k hk => h2 (k :: idx) (List.Forall₂.cons hk hi)
    simp only [List.mem_cons, List.not_mem_nil, or_false] at hp
    rcases hp with rfl | rfl | rfl | rfl
    · obtain ⟨x, y, hx, hy, h⟩ := use 0 (by norm_num)
      cases hx; cases hy
      exact (key _ _).mp h
    · obtain ⟨x, y, hx, hy, h⟩ := use 1 (by norm_num)
      cases hx; cases hy
      exact (key _ _).mp h
    · obtain ⟨x, y, hx, hy, h⟩ := use 2 (by norm_num)
      cases hx; cases hy
      exact (key _ _).mp h
    · obtain ⟨x, y, hx, hy, h⟩ := use 3 (by norm_num)
      cases hx; cases hy
      exact (key _ _).mp h
  · rintro ⟨h1, h2⟩
    refine ⟨by simpa [QuatArr.asFloat] using h1, fun idx hi => ?_⟩
    cases idx with
    | nil => cases hi
    | cons k idx =>
      rcases hi with _ | ⟨hk, hi⟩
      have H := h2 idx hi
      refine ⟨_, _, rfl, rfl, ?_⟩
      match k, hk with
      | 0, _ => exact (key _ _).mpr (H (fun q => q.re) (by simp))
      | 1, _ => exact (key _ _).mpr (H (fun q => q.imI) (by simp))
      | 2, _ => exact (key _ _).mpr (H (fun q => q.imJ) (by simp))
      | 3, _ => exact (key _ _).mpr (H (fun q => q.imK) (by simp))

theorem plain_eq (a b : Plain) : a.eq b = true ↔ PyEq a b := by
  cases a <;> cases b <;> simp [Plain.eq, PyEq]
  · rename_i n b; cases b <;> simp [Bool.toInt]
  · rename_i b n; cases b <;> simp [Bool.toInt]

theorem sameVal_verdict (o : Opts) (a b : Val) (h : Alike a b) : ∃ r, sameVal o a b = .ok r ∧ (r = true ↔ Agree o.rtol o.atol a b) := by
  cases a <;> cases b <;> try exact h.elim
  · exact np_same _ _ _ _ h
  · rename_i a b
    obtain ⟨r, h1, h2⟩ := np_same o.rtol o.atol a.asFloat b.asFloat (by simpa [QuatArr.asFloat, Alike] using h)
    exact ⟨r, h1, h2.trans (near_float _ _ a b)⟩
  · exact ⟨_, rfl, plain_eq _ _⟩

theorem take_prefix {α : Type} (a b : List α) : a.take (min a.length b.length) = b.take (min a.length b.length) ↔ a <+: b ∨ b <+: a := by
  constructor
  · intro h
    rcases Nat.le_total a.length b.length with hl | hl
    · rw [Nat.min_eq_left hl, List.take_length] at h
      left
      rw [h]
      exact List.take_prefix _ _
    · rw [Nat.min_eq_right hl, List.take_length] at h
      right
      rw [← h]
      exact List.take_prefix _ _
  · rintro (⟨c, rfl⟩ | ⟨c, rfl⟩)
    · simp
    · simp

theorem beginnings_verdict (a b : Val) (ha : IsList a) (hb : IsList b) : ∃ r, beginnings a b = .ok r ∧ (r = true ↔ SameBeginning a b) := by
  cases a with
  | arr => exact ha.elim
  | quat => exact ha.elim
  | plain x =>
    cases b with
    | arr => exact hb.elim
    | quat => exact hb.elim
    | plain y =>
      cases x <;> try exact ha.elim
      cases y <;> try exact hb.elim
      refine ⟨_, rfl, ?_⟩
      rw [decide_eq_true_iff]
      exact take_prefix _ _

theorem lookup_mem {d : List (String × Val)} (hd : (d.map (·.1)).Nodup) {k : String} {v : Val} (h : (k, v) ∈ d) : d.lookup k = some v := by
  induction d with
  | nil => cases h
  | cons p d ih =>
    rw [List.map_cons, List.nodup_cons] at hd
    obtain ⟨k', v'⟩ := p
    rw [List.lookup_cons]
    rcases List.mem_cons.mp h with h | h
    · cases h
      simp
    · have : k ≠ k' := by
        rintro rfl
        exact hd.1 (List.mem_map.mpr ⟨_, ‹(k, v) ∈ d›, rfl⟩)
      rw [show (k == k') = false by simpa using this]
      exact ih hd.2 h

/-- The loop: the verdict is the conjunction of the verdicts for the keys that are not skipped; it does not depend on `report_all`. -/
theorem loop_verdict (o : Opts) (self other : Obj) (P : String → Val → Prop) (l : List (String × Val))
    (h : ∀ k v, (k, v) ∈ l → skipped o k = false → ∃ r, sameKey o self other k v = .ok r ∧ (r = true ↔ P k v)) (eq : Bool) (he : o.reportAll = false → eq = true) :
    ∃ r, loop o self other l eq = .ok r ∧ (r = true ↔ eq = true ∧ ∀ k v, (k, v) ∈ l → skipped o k = false → P k v) := by
  induction l generalizing eq with
  | nil => exact ⟨eq, rfl, by simp⟩
  | cons p l ih =>
    obtain ⟨k, v⟩ := p
    have ih' := ih fun k v hm => h k v (List.mem_cons_of_mem _ hm)
    unfold loop
    by_cases hs : skipped o k = true
    · rw [if_pos hs]
      obtain ⟨r, h1, h2⟩ := ih' eq he
      refine ⟨r, h1, h2.trans (and_congr_right fun _ => ?_)⟩
      constructor
      · intro H k' v' hm hk
        rcases List.mem_cons.mp hm with hm | hm
        · cases hm; rw [hs] at hk; cases hk
        · exact H k' v' hm hk
      · exact fun H k' v' hm => H k' v' (List.mem_cons_of_mem _ hm)
    · rw [if_neg hs]
      have hs' : skipped o k = false := by simpa using hs
      obtain ⟨s, h1, h2⟩ := h k v (List.mem_cons_self) hs'
      rw [h1, ok_bind]
      by_cases hstop : ¬ o.reportAll ∧ ¬ (eq && s)
      · rw [if_pos hstop]
        refine ⟨false, rfl, ?_⟩
        constructor
        · intro hf; cases hf
        · rintro ⟨rfl, H⟩
          have hP := h2.mpr (H k v List.mem_cons_self hs')
          subst hP
          exact absurd rfl hstop.2
      · rw [if_neg hstop]
        obtain ⟨r, g1, g2⟩ := ih' (eq && s) (fun hr => by
          by_contra hc
          exact hstop ⟨by simp [hr], hc⟩)
        refine ⟨r, g1, g2.trans ?_⟩
        rw [Bool.and_eq_true, h2]
        constructor
        · rintro ⟨⟨e, hP⟩, H⟩
          refine ⟨e, fun k' v' hm hk => ?_⟩
          rcases List.mem_cons.mp hm with hm | hm
          · cases hm; exact hP
          · exact H k' v' hm hk
        · rintro ⟨e, H⟩
          exact ⟨⟨e, H k v List.mem_cons_self hs'⟩, fun k' v' hm => H k' v' (List.mem_cons_of_mem _ hm)⟩

theorem skipped_iff (o : Opts) (k : String) : skipped o k = false ↔ ¬ "__num".toList <:+ k.toList ∧ k ∉ o.exceptions := by
  unfold skipped
  rw [Bool.or_eq_false_iff, ← Bool.not_eq_true, ← Bool.not_eq_true, List.isSuffixOf_iff_suffix, List.contains_iff_mem]

/-- The verdict for one key. -/
theorem sameKey_verdict (o : Opts) (self other : Obj) (hs : Proper self) (ho : Proper other) (k : String) (v : Val) (hm : (k, v) ∈ self.dict)
    (hv : k ≠ "history" → ∃ v', other.dict.lookup k = some v' ∧ Alike v v') (hh : k = "history" → o.historyBeginnings = true → ∃ b, other.dict.lookup "history" = some b) :
    ∃ r, sameKey o self other k v = .ok r ∧ (r = true ↔ (k ≠ "history" → ∀ v', other.dict.lookup k = some v' → Agree o.rtol o.atol v v') ∧
      (k = "history" → o.historyBeginnings = true → ∀ v', other.dict.lookup k = some v' → SameBeginning v v')) := by
  have hl := lookup_mem hs.1 hm
  unfold sameKey
  by_cases h1 : k = "history"
  · subst h1
    rw [if_pos rfl]
    by_cases h2 : o.historyBeginnings = true
    · rw [if_pos h2]
      obtain ⟨b, hb⟩ := hh rfl h2
      obtain ⟨r, g1, g2⟩ := beginnings_verdict v b (hs.2.1 v hl) (ho.2.1 b hb)
      refine ⟨r, ?_, g2.trans ?_⟩
      · unfold getAttr
        rw [hl, hb]
        exact g1
      · constructor
        · intro hg
          refine ⟨fun h => absurd rfl h, fun _ _ v' hv' => ?_⟩
          rw [hb] at hv'
          cases hv'
          exact hg
        · exact fun H => H.2 rfl h2 b hb
    · rw [if_neg h2]
      exact ⟨true, rfl, by simp [h2]⟩
  · rw [if_neg h1]
    obtain ⟨v', hv1, hv2⟩ := hv h1
    have fin : ∀ r : Bool, (r = true ↔ Agree o.rtol o.atol v v') → (r = true ↔ (k ≠ "history" → ∀ v', other.dict.lookup k = some v' → Agree o.rtol o.atol v v') ∧
        (k = "history" → o.historyBeginnings = true → ∀ v', other.dict.lookup k = some v' → SameBeginning v v')) := by
      intro r hr
      rw [hr]
      constructor
      · intro hg
        refine ⟨fun _ w hw => ?_, fun h => absurd h h1⟩
        rw [hv1] at hw
        cases hw
        exact hg
      · exact fun H => H.1 h1 v' hv1
    by_cases h2 : k = "version_hist"
    · subst h2
      rw [if_pos rfl]
      obtain ⟨x, rfl⟩ := hs.2.2 v hl
      obtain ⟨y, rfl⟩ := ho.2.2 v' hv1
      refine ⟨x.eq y, ?_, fin _ (plain_eq x y)⟩
      unfold getAttr
      rw [hl, hv1]
      rfl
    · rw [if_neg h2]
      obtain ⟨r, g1, g2⟩ := sameVal_verdict o v v' hv2
      refine ⟨r, ?_, fin _ g2⟩
      unfold item
      rw [hv1]
      exact g1

/-- C43, if arrays with the same name have the same shape: the verdict is true exactly if the types are the same and every compared attribute agrees (and, if that is asked for, one history is the
beginning of the other).  It does not depend on `report_all`. -/
theorem verdict_partial (o : Opts) (self other : Obj) (hs : Proper self) (ho : Proper other)
    (hv : ∀ k v, (k, v) ∈ self.dict → Compared o k → ∃ v', other.dict.lookup k = some v' ∧ Alike v v')
    (hh : o.historyBeginnings = true → ∃ b, other.dict.lookup "history" = some b) :
    ∃ r, allclose o self other = .ok r ∧ (r = true ↔ self.type = other.type ∧
      (∀ k v v', (k, v) ∈ self.dict → Compared o k → other.dict.lookup k = some v' → Agree o.rtol o.atol v v') ∧
      (o.historyBeginnings = true → "history" ∉ o.exceptions → ∀ v v', self.dict.lookup "history" = some v → other.dict.lookup "history" = some v' → SameBeginning v v')) := by
  have hnum : ¬ "__num".toList <:+ "history".toList := by decide +kernel
  have lookup_of : ∀ (d : List (String × Val)) k v, d.lookup k = some v → (k, v) ∈ d := by
    intro d k v h
    induction d with
    | nil => cases h
    | cons p d ih =>
      rw [List.lookup_cons] at h
      by_cases hk : k == p.1
      · rw [hk] at h
        cases h
        rw [beq_iff_eq] at hk
        subst hk
        exact List.mem_cons_self
      · rw [show (k == p.1) = false by simpa using hk] at h
        exact List.mem_cons_of_mem _ (ih h)
  let P : String → Val → Prop := fun k v => (k ≠ "history" → ∀ v', other.dict.lookup k = some v' → Agree o.rtol o.atol v v') ∧
      (k = "history" → o.historyBeginnings = true → ∀ v', other.dict.lookup k = some v' → SameBeginning v v')
  have key : ∀ eq : Bool, (o.reportAll = false → eq = true) → ∃ r, loop o self other self.dict eq = .ok r ∧ (r = true ↔ eq = true ∧
      (∀ k v v', (k, v) ∈ self.dict → Compared o k → other.dict.lookup k = some v' → Agree o.rtol o.atol v v') ∧
      (o.historyBeginnings = true → "history" ∉ o.exceptions → ∀ v v', self.dict.lookup "history" = some v → other.dict.lookup "history" = some v' → SameBeginning v v')) := by
    intro eq he
    obtain ⟨r, h1, h2⟩ := loop_verdict o self other P self.dict (fun k v hm hk => sameKey_verdict o self other hs ho k v hm (fun hne => by
      obtain ⟨g1, g2⟩ := (skipped_iff o k).mp hk
      exact hv k v hm ⟨g1, g2, hne⟩) (fun _ => hh)) eq he
    refine ⟨r, h1, h2.trans (and_congr_right fun _ => ?_)⟩
    constructor
    · intro H
      refine ⟨fun k v v' hm hc hl => (H k v hm ((skipped_iff o k).mpr ⟨hc.1, hc.2.1⟩)).1 hc.2.2 v' hl, fun hb hx v v' hl hl' => ?_⟩
      exact (H "history" v (lookup_of _ _ _ hl) ((skipped_iff o _).mpr ⟨hnum, hx⟩)).2 rfl hb v' hl'
    · rintro ⟨H1, H2⟩ k v hm hk
      obtain ⟨g1, g2⟩ := (skipped_iff o k).mp hk
      refine ⟨fun hne v' hl => H1 k v v' hm ⟨g1, g2, hne⟩ hl, fun he hb v' hl => ?_⟩
      subst he
      exact H2 hb g2 v v' (lookup_mem hs.1 hm) hl
  unfold allclose
  by_cases ht : self.type = other.type
  · rw [if_neg (by simpa using ht)]
    obtain ⟨r, h1, h2⟩ := key true fun _ => rfl
    refine ⟨r, h1, h2.trans ?_⟩
    simp [ht]
  · rw [if_pos ht]
    by_cases hr : o.reportAll = true
    · rw [if_neg (by simp [hr])]
      obtain ⟨r, h1, h2⟩ := key false fun h => by rw [hr] at h; cases h
      refine ⟨r, h1, h2.trans ?_⟩
      simp [ht]
    · rw [if_pos (by simpa using hr)]
      exact ⟨false, rfl, by simp [ht]⟩

/-- C43: a waveform without nan is equal to itself. -/
theorem reflexive (o : Opts) (h1 : 0 ≤ o.rtol) (h2 : 0 ≤ o.atol) (W : Obj) (hW : Proper W) (hf : ∀ k v, (k, v) ∈ W.dict → Finite v) (hh : o.historyBeginnings = true → ∃ b, W.dict.lookup "history" = some b) :
    allclose o W W = .ok true := by
  have alike : ∀ v, Alike v v := fun v => by cases v <;> simp [Alike]
  obtain ⟨r, e, h⟩ := verdict_partial o W W hW hW (fun k v hm _ => ⟨v, lookup_mem hW.1 hm, alike v⟩) hh
  rw [e, h.mpr ⟨rfl, fun k v v' hm _ hl => ?_, fun _ _ v v' hl hl' => ?_⟩]
  · rw [lookup_mem hW.1 hm] at hl
    cases hl
    have := hf k v hm
    cases v with
    | arr a =>
      refine ⟨rfl, fun idx hi => ?_⟩
      obtain ⟨x, hx⟩ := this idx hi
      refine ⟨x, x, hx, hx, ?_⟩
      rw [sub_self, norm_zero]
      positivity
    | quat a =>
      refine ⟨rfl, fun idx hi part _ => ?_⟩
      rw [sub_self, abs_zero]
      positivity
    | plain x => cases x <;> rfl
  · rw [hl] at hl'
    cases hl'
    have := hW.2.1 v hl
    cases v with
    | plain x =>
      cases x <;> try exact this.elim
      exact .inl (List.prefix_refl _)
    | arr => exact this.elim
    | quat => exact this.elim

/-! ## Where the verdict is not what it should be -/

open Classical in
/-- An array without elements is equal to every array of length 1: `np.allclose` broadcasts. -/
theorem empty_frame_equals (rtol atol : ℝ) (a b : QuatArr) (ha : a.shape = [0]) (hb : b.shape = [1]) : npAllclose rtol atol a.asFloat b.asFloat = .ok true := by
  unfold npAllclose QuatArr.asFloat
  simp only [ha, hb]
  show Except.ok _ = _
  congr 1
  rw [decide_eq_true_iff]
  intro idx hi
  rcases hi with _ | ⟨-, hi⟩
  rcases hi with _ | ⟨hk, -⟩
  omega

/-- A waveform with a frame, for the examples. -/
def withFrame (f : QuatArr) : Obj := { type := "WaveformModes", dict := [("frame", .quat f), ("history", .plain (.list [])), ("version_hist", .plain (.list []))] }

theorem withFrame_proper (f : QuatArr) : Proper (withFrame f) := by
  refine ⟨by simp [withFrame], fun v hv => ?_, fun v hv => ?_⟩
  · have : (withFrame f).dict.lookup "history" = some (.plain (.list [])) := by
      simp [withFrame, List.lookup]
    rw [this] at hv
    cases hv
    trivial
  · have : (withFrame f).dict.lookup "version_hist" = some (.plain (.list [])) := by
      simp [withFrame, List.lookup]
    rw [this] at hv
    cases hv
    exact ⟨_, rfl⟩

/-- C43 fails: a waveform without a frame is reported equal to a waveform with an arbitrary constant frame. -/
theorem frame_ignored (q : Quaternion ℝ) (o : Opts) : allclose o (withFrame ⟨[0], fun _ => 1⟩) (withFrame ⟨[1], fun _ => q⟩) = .ok true := by
  have e := empty_frame_equals o.rtol o.atol ⟨[0], fun _ => 1⟩ ⟨[1], fun _ => q⟩ rfl rfl
  unfold allclose
  rw [if_neg (by simp [withFrame])]
  have hA : sameKey o (withFrame ⟨[0], fun _ => 1⟩) (withFrame ⟨[1], fun _ => q⟩) "frame" (.quat ⟨[0], fun _ => 1⟩) = .ok true := by
    unfold sameKey
    rw [if_neg (by decide), if_neg (by decide)]
    have : item (withFrame ⟨[1], fun _ => q⟩) "frame" = .ok (.quat ⟨[1], fun _ => q⟩) := by simp [item, withFrame]
    rw [this]
    exact e
  obtain ⟨r, h1, h2⟩ := loop_verdict o (withFrame ⟨[0], fun _ => 1⟩) (withFrame ⟨[1], fun _ => q⟩) (fun _ _ => True) (withFrame ⟨[0], fun _ => 1⟩).dict (fun k v hm _ => by
    have hm' : (k, v) = ("frame", .quat ⟨[0], fun _ => 1⟩) ∨ (k, v) = ("history", .plain (.list [])) ∨ (k, v) = ("version_hist", .plain (.list [])) := by
      simpa [withFrame] using hm
    rcases hm' with h | h | h
    · cases h
      exact ⟨true, hA, by simp⟩
    · cases h
      unfold sameKey
      rw [if_pos rfl]
      split_ifs
      · refine ⟨true, ?_, by simp⟩
        simp [getAttr, withFrame, List.lookup, beginnings, ok_bind]
      · exact ⟨true, rfl, by simp⟩
    · cases h
      unfold sameKey
      rw [if_neg (by decide), if_pos rfl]
      refine ⟨true, ?_, by simp⟩
      simp [getAttr, withFrame, List.lookup, plainEq, Plain.eq, ok_bind]) true (fun _ => rfl)
  rw [h1, h2.mpr ⟨rfl, fun _ _ _ _ => trivial⟩]

/-- C43: an attribute that only the other waveform has is not looked at. -/
theorem extra_ignored (o : Opts) (W : Obj) (h : allclose o W W = .ok true) (k : String) (v : Val) (hk : k ∉ W.dict.map (·.1)) (hh : k ≠ "history") (hv : k ≠ "version_hist") :
    allclose o W { W with dict := W.dict ++ [(k, v)] } = .ok true := by
  have lk : ∀ k', (k' ∈ W.dict.map (·.1) ∨ k' ≠ k) → (W.dict ++ [(k, v)]).lookup k' = W.dict.lookup k' := by
    intro k' hk'
    generalize W.dict = d at *
    induction d with
    | nil =>
      have : k' ≠ k := by simpa using hk'
      rw [List.nil_append, List.lookup_cons, show (k' == k) = false by simpa using this]
    | cons p d ih =>
      rw [List.cons_append, List.lookup_cons, List.lookup_cons]
      by_cases hp : k' == p.1
      · rw [hp]
      · have hp' : (k' == p.1) = false := by simpa using hp
        rw [hp']
        refine ih (fun hc => hk (by simp at hc ⊢; exact .inr hc)) ?_
        rcases hk' with hk' | hk'
        · rw [List.map_cons, List.mem_cons] at hk'
          rcases hk' with hk' | hk'
          · rw [hk'] at hp; simp at hp
          · exact .inl hk'
        · exact .inr hk'
  have sk : ∀ k' v', (k', v') ∈ W.dict → sameKey o W { W with dict := W.dict ++ [(k, v)] } k' v' = sameKey o W W k' v' := by
    intro k' v' hm
    unfold sameKey getAttr item
    rw [lk "history" (.inr hh.symm), lk "version_hist" (.inr hv.symm), lk k' (.inl (List.mem_map.mpr ⟨_, hm, rfl⟩))]
  have lp : ∀ (l : List (String × Val)), (∀ p ∈ l, p ∈ W.dict) → ∀ eq, loop o W { W with dict := W.dict ++ [(k, v)] } l eq = loop o W W l eq := by
    intro l
    induction l with
    | nil => intro _ eq; rfl
    | cons p l ih =>
      intro hl eq
      unfold loop
      rw [sk p.1 p.2 (hl p List.mem_cons_self)]
      simp only [ih fun q hq => hl q (List.mem_cons_of_mem _ hq)]
  unfold allclose at h ⊢
  simp only [ne_eq, not_true_eq_false, if_false] at h ⊢
  rw [lp _ (fun _ h => h)]
  exact h

/-- C43: an attribute that the other waveform lacks raises KeyError (if nothing was reported before). -/
theorem missing_raises (o : Opts) (W V : Obj) (ht : W.type = V.type) (k : String) (v : Val) (rest : List (String × Val)) (hd : W.dict = (k, v) :: rest) (hs : skipped o k = false) (h1 : k ≠ "history") (h2 : k ≠ "version_hist")
    (hm : V.dict.lookup k = none) : allclose o W V = .error .keyError := by
  unfold allclose
  rw [if_neg (by simpa using ht), hd]
  unfold loop
  rw [if_neg (by simp [hs])]
  have : sameKey o W V k v = .error .keyError := by
    unfold sameKey item
    rw [if_neg h1, if_neg h2, hm]
    rfl
  rw [this]
  rfl

/-- C43: the tolerance is relative to the other waveform, so the verdict is not symmetric. -/
theorem not_symmetric : close (1 / 2) 0 (some 1) (some 2) ∧ ¬ close (1 / 2) 0 (some 2) (some 1) := by
  unfold close
  constructor
  · norm_num
  · norm_num

/-- C43: a nan makes a waveform differ from itself. -/
theorem nan_differs (rtol atol : ℝ) : npAllclose rtol atol ⟨[1], fun _ => none⟩ ⟨[1], fun _ => none⟩ = .ok false := by
  obtain ⟨r, h1, h2⟩ := np_same rtol atol ⟨[1], fun _ => none⟩ ⟨[1], fun _ => none⟩ rfl
  rw [h1]
  cases r with
  | false => rfl
  | true =>
    obtain ⟨x, y, hx, -⟩ := (h2.mp rfl).2 [0] (List.Forall₂.cons (by norm_num) List.Forall₂.nil)
    cases hx

/-- Not vacuous: two waveforms that differ in the frame. -/
example : ∃ r, allclose {} (withFrame ⟨[1], fun _ => 1⟩) (withFrame ⟨[1], fun _ => 2⟩) = .ok r := by
  obtain ⟨r, h, -⟩ := verdict_partial {} (withFrame ⟨[1], fun _ => 1⟩) (withFrame ⟨[1], fun _ => 2⟩) (withFrame_proper _) (withFrame_proper _) (fun k v hm _ => by
    have hm' : (k, v) = ("frame", .quat ⟨[1], fun _ => 1⟩) ∨ (k, v) = ("history", .plain (.list [])) ∨ (k, v) = ("version_hist", .plain (.list [])) := by
      simpa [withFrame] using hm
    rcases hm' with h | h | h
    · cases h; exact ⟨.quat ⟨[1], fun _ => 2⟩, by simp [withFrame], rfl⟩
    · cases h; exact ⟨.plain (.list []), by simp [withFrame, List.lookup], trivial⟩
    · cases h; exact ⟨.plain (.list []), by simp [withFrame, List.lookup], trivial⟩) (fun h => by cases h)
  exact ⟨r, h⟩

end Verif.Props.Allclose
