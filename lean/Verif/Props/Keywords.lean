import Verif.Spec.Keywords
import Mathlib.Data.List.Nodup
import Mathlib.Tactic.IntervalCases

/-!
# C108: a keyword argument is used or reported
-/

namespace Verif.Props.Keywords
open Verif Verif.Keywords Verif.Spec.Keywords

variable {V : Type}

/-- The dictionary and the values taken make up the arguments. -/
structure Inv (kw : Dict V) (s : St V) : Prop where
  proper : Proper s.kw
  all : ∀ k v, (k, v) ∈ kw ↔ s.got k = some v ∨ (k, v) ∈ s.kw
  apart : ∀ k v, (k, v) ∈ s.kw → s.got k = none

theorem lookup_mem {kw : Dict V} (h : Proper kw) (k : String) (v : V) : kw.lookup k = some v ↔ (k, v) ∈ kw := by
  induction kw with
  | nil => simp
  | cons p l ih =>
    obtain ⟨a, b⟩ := p
    unfold Proper at h
    rw [List.map_cons, List.nodup_cons] at h
    have ih := ih h.2
    rw [List.lookup_cons]
    by_cases e : k = a
    · subst e
      simp only [beq_self_eq_true, Option.some.injEq, List.mem_cons, Prod.mk.injEq, true_and]
      constructor
      · intro e
        exact .inl e.symm
      · rintro (e | e)
        · exact e.symm
        · exact absurd (List.mem_map.2 ⟨_, e, rfl⟩) h.1
    · have hb : (k == a) = false := by simpa using e
      rw [hb]
      simp [ih, e]

theorem inv_start {kw : Dict V} (h : Proper kw) : Inv kw (start kw) := ⟨h, fun k v => by simp [start], fun k v _ => rfl⟩

theorem inv_pop {kw : Dict V} {s : St V} (h : Inv kw s) (k : String) : Inv kw (pop s k) := by
  refine ⟨?_, fun x v => ?_, fun x v hx => ?_⟩
  · exact h.proper.sublist (List.Sublist.map _ List.filter_sublist)
  · rw [h.all]
    unfold pop
    simp only [List.mem_filter, bne_iff_ne, ne_eq]
    by_cases e : x = k
    · subst e
      simp only [if_true, not_true_eq_false, and_false, or_false]
      rcases hl : s.kw.lookup x with _ | u
      · have hn : ∀ v, (x, v) ∉ s.kw := fun v hv => by
          rw [← lookup_mem h.proper, hl] at hv
          cases hv
        simp [hn]
      · have hu := (lookup_mem h.proper x u).1 hl
        rw [h.apart x u hu]
        show none = some v ∨ (x, v) ∈ s.kw ↔ some u = some v
        rw [← lookup_mem h.proper, hl]
        simp
    · simp [e]
  · unfold pop at hx ⊢
    simp only [List.mem_filter, bne_iff_ne, ne_eq] at hx
    simp only [if_neg hx.2]
    exact h.apart x v hx.1

theorem inv_popAll {kw : Dict V} (ks : List String) {s : St V} (h : Inv kw s) : Inv kw (popAll s ks) := by
  unfold popAll
  induction ks generalizing s with
  | nil => exact h
  | cons k ks ih => exact ih (inv_pop h k)

theorem heard_of {kw : Dict V} {s : St V} (h : Inv kw s) :
    (∀ k v, (k, v) ∈ kw → ((warn s).got k = some v ∧ (k, v) ∉ (warn s).warned) ∨ ((warn s).got k = none ∧ (k, v) ∈ (warn s).warned)) ∧ (∀ p ∈ (warn s).warned, p ∈ kw) ∧ ∀ k v, (warn s).got k = some v → (k, v) ∈ kw := by
  refine ⟨fun k v hk => ?_, fun p hp => (h.all p.1 p.2).2 (.inr hp), fun k v hk => (h.all k v).2 (.inl hk)⟩
  rcases (h.all k v).1 hk with h1 | h1
  · refine .inl ⟨h1, fun h2 => ?_⟩
    have := h.apart k v h2
    rw [show s.got k = some v from h1] at this
    cases this
  · exact .inr ⟨h.apart k v h1, h1⟩

theorem heard_base {kw : Dict V} {s : St V} (h : Inv kw s) (args : Args) (c : Call V) (hc : baseInit args s = .ok c) : ∃ s', Inv kw s' ∧ c = warn s' := by
  unfold baseInit at hc
  cases args with
  | none => exact ⟨_, inv_popAll _ (inv_pop h _), (Except.ok.inj hc).symm⟩
  | object => exact ⟨_, inv_pop h _, (Except.ok.inj hc).symm⟩
  | other => cases hc

/-- C108: the constructors of waveforms, with and without an object that is copied. -/
theorem constructors_heard (args : Args) : Heard (fun kw : Dict V => baseInit args (start kw)) ∧ Heard (modesInit (V := V) args) ∧ Heard (gridInit (V := V) args) := by
  refine ⟨fun kw hp c hc => ?_, fun kw hp c hc => ?_, fun kw hp c hc => ?_⟩
  · obtain ⟨s, hs, rfl⟩ := heard_base (inv_start hp) args c hc
    exact heard_of hs
  · unfold modesInit at hc
    cases args with
    | none =>
      obtain ⟨s, hs, rfl⟩ := heard_base (inv_popAll _ (inv_start hp)) _ c hc
      exact heard_of hs
    | object =>
      obtain ⟨s, hs, rfl⟩ := heard_base (inv_start hp) _ c hc
      exact heard_of hs
    | other =>
      obtain ⟨s, hs, rfl⟩ := heard_base (inv_popAll _ (inv_start hp)) _ c hc
      exact heard_of hs
  · obtain ⟨s, hs, rfl⟩ := heard_base (inv_popAll _ (inv_start hp)) args c hc
    exact heard_of hs

theorem inv_required {kw : Dict V} (ks : List String) {s s' : St V} (h : Inv kw s) (hs : popRequired s ks = .ok s') : Inv kw s' := by
  induction ks generalizing s with
  | nil =>
    cases hs
    exact h
  | cons k ks ih =>
    unfold popRequired at hs
    split at hs
    · exact ih (inv_pop h k) hs
    · cases hs

theorem heard_fromModes (trivial : (String → Option V) → Bool) (dataType : Nat) {kw : Dict V} {s : St V} (h : Inv kw s) {c : Call V} (hc : fromModes trivial dataType s = .ok c) : ∃ s', Inv kw s' ∧ c = warn s' := by
  unfold fromModes at hc
  have h1 := inv_popAll gridNames h
  by_cases ht : trivial (popAll s gridNames).got = false ∧ 1 ≤ dataType ∧ dataType ≤ 4
  · simp only [if_pos ht] at hc
    rcases hr : popRequired (popAll s gridNames) (required dataType) with e | s'
    · rw [hr, error_bind] at hc
      cases hc
    · rw [hr, ok_bind] at hc
      exact ⟨s', inv_required _ h1 hr, (Except.ok.inj hc).symm⟩
  · simp only [if_neg ht] at hc
    exact ⟨_, h1, (Except.ok.inj hc).symm⟩

/-- C108: the transformations of waveforms. -/
theorem transform_heard (trivial : (String → Option V) → Bool) (dataType : Nat) : Heard (fun kw : Dict V => fromModes trivial dataType (start kw)) ∧ Heard (transform trivial dataType) := by
  refine ⟨fun kw hp c hc => ?_, fun kw hp c hc => ?_⟩
  · obtain ⟨s, hs, rfl⟩ := heard_fromModes trivial dataType (inv_start hp) hc
    exact heard_of hs
  · obtain ⟨s, hs, rfl⟩ := heard_fromModes trivial dataType (inv_pop (inv_start hp) _) hc
    exact heard_of hs

/-- C108: the functions that read files. -/
theorem files_heard (attrs : String → Bool) (format : String) : Heard (readH5 (V := V) attrs) ∧ Heard (createAbd (V := V) format) := by
  refine ⟨fun kw hp c hc => ?_, fun kw hp c hc => ?_⟩
  · obtain rfl := (Except.ok.inj hc).symm
    refine heard_of ?_
    have key : ∀ (l : List (String × String)) (s : St V), Inv kw s → Inv kw (l.foldl (fun s p => if attrs p.1 then s else pop s p.2) s) := by
      intro l
      induction l with
      | nil => exact fun s h => h
      | cons p l ih =>
        intro s h
        refine ih _ ?_
        show Inv kw (if attrs p.1 then s else pop s p.2)
        split
        · exact h
        · exact inv_pop h _
    exact key _ _ (inv_start hp)
  · unfold createAbd at hc
    split at hc
    · split at hc
      · obtain rfl := (Except.ok.inj hc).symm
        exact heard_of (inv_pop (inv_start hp) _)
      · cases hc
    · split at hc
      · cases hc
      · obtain rfl := (Except.ok.inj hc).symm
        exact heard_of (inv_popAll _ (inv_start hp))

/-- C108: the sample waveforms. -/
theorem samples_heard (true' : V → Bool) : Heard (modesConstructor (V := V)) ∧ Heard (constantWaveform (V := V)) ∧ Heard (randomWaveform true') ∧ Heard (constantRotation (V := V)) ∧ Heard (proportionalToTime (V := V)) ∧ Heard (supertranslated (V := V)) := by
  refine ⟨fun kw hp c hc => ?_, fun kw hp c hc => ?_, fun kw hp c hc => ?_, fun kw hp c hc => ?_, fun kw hp c hc => ?_, fun kw hp c hc => ?_⟩
  · obtain rfl := (Except.ok.inj hc).symm
    exact heard_of (inv_popAll _ (inv_start hp))
  · obtain rfl := (Except.ok.inj hc).symm
    exact heard_of (inv_start hp)
  · obtain rfl := (Except.ok.inj hc).symm
    refine heard_of (inv_pop ?_ _)
    split
    · exact inv_pop (inv_popAll _ (inv_start hp)) _
    · exact inv_popAll _ (inv_start hp)
  · obtain rfl := (Except.ok.inj hc).symm
    exact heard_of (inv_popAll _ (inv_start hp))
  · obtain rfl := (Except.ok.inj hc).symm
    exact heard_of (inv_popAll _ (inv_start hp))
  · obtain rfl := (Except.ok.inj hc).symm
    exact heard_of (inv_popAll _ (inv_start hp))

/-! ## Silence -/

/-- States that differ in an argument only. -/
def Less (k : String) (v : V) (s s' : St V) : Prop := s.kw = (k, v) :: s'.kw ∧ s.got = s'.got

theorem less_pop {k x : String} {v : V} {s s' : St V} (h : Less k v s s') (hx : x ≠ k) : Less k v (pop s x) (pop s' x) := by
  have hb : (k != x) = true := by simpa using hx.symm
  have hc : (x == k) = false := by simpa using hx
  refine ⟨?_, ?_⟩
  · unfold pop
    simp only [h.1, List.filter_cons, hb, if_true]
  · unfold pop
    simp only [h.1, h.2, List.lookup_cons, hc]

theorem less_popAll {k : String} {v : V} (ks : List String) {s s' : St V} (h : Less k v s s') (hk : k ∉ ks) : Less k v (popAll s ks) (popAll s' ks) := by
  unfold popAll
  induction ks generalizing s s' with
  | nil => exact h
  | cons x ks ih =>
    rw [List.mem_cons, not_or] at hk
    exact ih (less_pop h (Ne.symm hk.1)) hk.2

theorem less_start (k : String) (v : V) (kw : Dict V) : Less k v (start ((k, v) :: kw)) (start kw) := ⟨rfl, rfl⟩

theorem less_quiet {k : String} {v : V} {s s' : St V} (h : Less k v s s') : quiet s = quiet s' := by
  unfold quiet
  rw [h.2]

/-- C108, the transformation of asymptotic Bondi data: each argument whose name is not one of the eight is silently ignored. -/
theorem abd_ignored (k : String) (hk : k ∉ abdNames) : Ignored (V := V) abdTransform k := by
  refine fun v kw => ⟨?_, fun c hc => ?_⟩
  · unfold abdTransform
    rw [less_quiet (less_popAll abdNames (less_start k v kw) hk)]
  · cases hc
    rfl

/-- C108, the constructors of BMS and Lorentz transformations, likewise. -/
theorem bms_ignored (k : String) (hk : k ∉ "ell_max" :: "order" :: abdNames) : Ignored (V := V) bmsInit k := by
  rw [List.mem_cons, List.mem_cons, not_or, not_or] at hk
  refine fun v kw => ⟨?_, fun c hc => ?_⟩
  · unfold bmsInit
    rw [less_quiet (less_pop (less_popAll abdNames (less_pop (less_start k v kw) (Ne.symm hk.1)) hk.2.2) (Ne.symm hk.2.1))]
  · cases hc
    rfl

/-- An argument that is ignored is not heard. -/
theorem ignored_not_heard [Nonempty V] {F : Dict V → Py (Call V)} {k : String} (h : Ignored F k) {c : Call V} (hc : F [] = .ok c) (hn : c.got k = none) : ¬ Heard F := by
  intro hF
  obtain ⟨v⟩ := ‹Nonempty V›
  have e := (h v []).1
  have := (hF [(k, v)] (by simp [Proper]) c (e.trans hc)).1 k v (by simp)
  rw [hn, (h v []).2 c hc] at this
  simp at this

/-- C108 does not hold of the transformation of asymptotic Bondi data: for example, `ell_max`, which `WaveformModes.transform` takes, and `n_theta`, are ignored without a warning. -/
theorem abd_not_heard [Nonempty V] : ¬ Heard (V := V) abdTransform ∧ Ignored (V := V) abdTransform "ell_max" ∧ Ignored (V := V) abdTransform "n_theta" :=
  ⟨ignored_not_heard (abd_ignored "ell_max" (by decide)) rfl rfl, abd_ignored _ (by decide), abd_ignored _ (by decide)⟩

/-- ... and of the constructors of BMS transformations: a misspelled name is ignored without a warning. -/
theorem bms_not_heard [Nonempty V] : ¬ Heard (V := V) bmsInit ∧ Ignored (V := V) bmsInit "boost" ∧ Ignored (V := V) bmsInit "rotation" :=
  ⟨ignored_not_heard (bms_ignored "boost" (by decide)) rfl rfl, bms_ignored _ (by decide), bms_ignored _ (by decide)⟩

theorem got_popAll {kw : Dict V} (ks : List String) {s : St V} (h : Inv kw s) : ∀ k v, k ∈ ks → (k, v) ∈ kw → (popAll s ks).got k = some v := by
  intro k v hk hv
  have hi := inv_popAll ks h
  rcases (hi.all k v).1 hv with h1 | h1
  · exact h1
  · exfalso
    clear hi
    unfold popAll at h1
    induction ks generalizing s with
    | nil => cases hk
    | cons x ks ih =>
      by_cases e : k ∈ ks
      · exact ih (inv_pop h x) e h1
      · obtain rfl : k = x := by
          rcases List.mem_cons.1 hk with h | h
          · exact h
          · exact absurd h e
        have sub : ∀ (ks : List String) (s : St V), (ks.foldl pop s).kw ⊆ s.kw := by
          intro ks
          induction ks with
          | nil => exact fun s => List.Subset.refl _
          | cons x ks ih => exact fun s => List.Subset.trans (ih _) List.filter_sublist.subset
        have := sub ks _ h1
        unfold pop at this
        simp at this

/-- What does hold of them: the arguments with the known names are used. -/
theorem abd_heard_partial (kw : Dict V) (hp : Proper kw) (c : Call V) (hc : abdTransform kw = .ok c) (k : String) (v : V) (hk : k ∈ abdNames) (hv : (k, v) ∈ kw) : c.got k = some v := by
  obtain rfl := (Except.ok.inj hc).symm
  exact got_popAll abdNames (inv_start hp) k v hk hv

theorem bms_heard_partial (kw : Dict V) (hp : Proper kw) (c : Call V) (hc : bmsInit kw = .ok c) (k : String) (v : V) (hk : k ∈ "ell_max" :: "order" :: abdNames) (hv : (k, v) ∈ kw) : c.got k = some v := by
  obtain rfl := (Except.ok.inj hc).symm
  have := got_popAll ("ell_max" :: abdNames ++ ["order"]) (inv_start hp) k v (by
    simp only [List.mem_cons, List.mem_append, List.mem_nil_iff, or_false, List.cons_append] at hk ⊢
    tauto) hv
  rw [popAll, List.cons_append, List.foldl_cons, List.foldl_append] at this
  exact this

/-! ## Which arguments are used -/

/-- The names that a transformation of a waveform uses: those of the transformation, `ell_max`, and the other Weyl scalars if they are needed. -/
theorem transform_uses (trivial : (String → Option V) → Bool) (dataType : Nat) (kw : Dict V) (hp : Proper kw) (c : Call V) (hc : transform trivial dataType kw = .ok c) (k : String) (v : V) (hv : (k, v) ∈ kw) (hk : k ∈ "ell_max" :: gridNames) :
    c.got k = some v ∧ (k, v) ∉ c.warned := by
  have key : ∀ s : St V, Inv kw s → s.got k = some v → ∀ ks s', popRequired s ks = .ok s' → s'.got k = some v := by
    intro s hs hg ks
    induction ks generalizing s with
    | nil =>
      intro s' e
      cases e
      exact hg
    | cons x ks ih =>
      intro s' e
      unfold popRequired at e
      split at e
      · refine ih _ (inv_pop hs x) ?_ s' e
        have hi := inv_pop hs x
        rcases (hi.all k v).1 hv with h1 | h1
        · exact h1
        · have h2 : (k, v) ∈ s.kw := List.filter_sublist.subset h1
          rw [hs.apart k v h2] at hg
          cases hg
      · cases e
  have hg : (popAll (pop (start kw) "ell_max") gridNames).got k = some v := got_popAll ("ell_max" :: gridNames) (inv_start hp) k v hk hv
  have hgot : c.got k = some v := by
    unfold transform fromModes at hc
    by_cases ht : trivial (popAll (pop (start kw) "ell_max") gridNames).got = false ∧ 1 ≤ dataType ∧ dataType ≤ 4
    · simp only [if_pos ht] at hc
      rcases hr : popRequired (popAll (pop (start kw) "ell_max") gridNames) (required dataType) with e | s'
      · rw [hr, error_bind] at hc
        cases hc
      · rw [hr, ok_bind] at hc
        obtain rfl := (Except.ok.inj hc).symm
        exact key _ (inv_popAll _ (inv_pop (inv_start hp) _)) hg _ _ hr
    · simp only [if_neg ht] at hc
      obtain rfl := (Except.ok.inj hc).symm
      exact hg
  refine ⟨hgot, fun hw => ?_⟩
  rcases ((transform_heard trivial dataType).2 kw hp c hc).1 k v hv with h | h
  · exact h.2 hw
  · rw [hgot] at h
    cases h.1

theorem uses_popAll {F : Dict V → Py (Call V)} {ks names : List String} (h : ∀ kw c, F kw = .ok c → c.got = (popAll (start kw) ks).got) (hs : names ⊆ ks) : Uses F names := by
  intro kw hp c hc k v hk hv
  rw [h kw c hc]
  exact got_popAll ks (inv_start hp) k v (hs hk) hv

/-- The constructors use the attributes, and those of their class; with an object to be copied, grids use the numbers of points only. -/
theorem constructors_use : Uses (fun kw : Dict V => baseInit .none (start kw)) attributeNames ∧ Uses (modesInit (V := V) .none) (attributeNames ++ ["ell_min", "ell_max"]) ∧ Uses (gridInit (V := V) .none) (attributeNames ++ ["n_theta", "n_phi"]) ∧ Uses (gridInit (V := V) .object) ["n_theta", "n_phi"] :=
  ⟨uses_popAll (ks := "override_exception_from_invalidity" :: ["t", "frame", "data", "history", "version_hist", "frameType", "dataType", "r_is_scaled_out", "m_is_scaled_out", "constructor_statement"]) (fun kw c hc => by cases hc; rfl) (by decide),
   uses_popAll (ks := "ell_min" :: "ell_max" :: "override_exception_from_invalidity" :: ["t", "frame", "data", "history", "version_hist", "frameType", "dataType", "r_is_scaled_out", "m_is_scaled_out", "constructor_statement"]) (fun kw c hc => by cases hc; rfl) (by decide),
   uses_popAll (ks := "n_theta" :: "n_phi" :: "override_exception_from_invalidity" :: ["t", "frame", "data", "history", "version_hist", "frameType", "dataType", "r_is_scaled_out", "m_is_scaled_out", "constructor_statement"]) (fun kw c hc => by cases hc; rfl) (by decide),
   uses_popAll (ks := ["n_theta", "n_phi", "override_exception_from_invalidity"]) (fun kw c hc => by cases hc; rfl) (by decide)⟩

/-- All functions that transform use all arguments that describe the transformation. -/
theorem transformations_use (trivial : (String → Option V) → Bool) (dataType : Nat) :
    Uses (transform trivial dataType) (frameNames ++ ["n_theta", "n_phi", "ell_max"]) ∧ Uses (V := V) abdTransform (frameNames ++ ["output_ell_max", "working_ell_max"]) ∧ Uses (V := V) bmsInit (frameNames ++ ["order", "ell_max"]) :=
  ⟨fun kw hp c hc k v hk hv => (transform_uses trivial dataType kw hp c hc k v hv ((by decide : frameNames ++ ["n_theta", "n_phi", "ell_max"] ⊆ "ell_max" :: gridNames) hk)).1,
   fun kw hp c hc k v hk hv => abd_heard_partial kw hp c hc k v ((by decide : frameNames ++ ["output_ell_max", "working_ell_max"] ⊆ abdNames) hk) hv,
   fun kw hp c hc k v hk hv => bms_heard_partial kw hp c hc k v ((by decide : frameNames ++ ["order", "ell_max"] ⊆ "ell_max" :: "order" :: abdNames) hk) hv⟩

/-- The sample waveforms use the arguments they document. -/
theorem samples_use : Uses (modesConstructor (V := V)) ["t", "frame", "frameType", "dataType", "r_is_scaled_out", "m_is_scaled_out", "ell_min", "ell_max"] ∧ Uses (constantRotation (V := V)) ["s", "ell", "m", "ell_min", "ell_max", "data_type", "t_0", "t_1", "dt", "omega"] ∧
    Uses (proportionalToTime (V := V)) ["s", "ell", "m", "ell_min", "ell_max", "data_type", "t_0", "t_1", "dt", "beta"] ∧ Uses (supertranslated (V := V)) ["s", "ell", "m", "ell_min", "ell_max", "data_type", "t_0", "t_1", "dt", "beta", "supertranslation", "space_translation"] :=
  ⟨uses_popAll (ks := ["t", "frame", "frameType", "dataType", "r_is_scaled_out", "m_is_scaled_out", "ell_min", "ell_max"]) (fun kw c hc => by cases hc; rfl) (by decide),
   uses_popAll (ks := singleNames ++ ["omega"]) (fun kw c hc => by cases hc; rfl) (by decide),
   uses_popAll (ks := singleNames ++ ["beta"]) (fun kw c hc => by cases hc; rfl) (by decide),
   uses_popAll (ks := singleNames ++ ["beta", "supertranslation", "space_translation"]) (fun kw c hc => by cases hc; rfl) (by decide)⟩

theorem required_spec {kw : Dict V} (ks : List String) {s s' : St V} (h : Inv kw s) (e : popRequired s ks = .ok s') : s' = popAll s ks ∧ ∀ k ∈ ks, ∃ v, (k, v) ∈ kw := by
  induction ks generalizing s with
  | nil =>
    cases e
    exact ⟨rfl, fun k hk => nomatch hk⟩
  | cons x ks ih =>
    unfold popRequired at e
    split at e
    · rename_i hx
      obtain ⟨h1, h2⟩ := ih (inv_pop h x) e
      refine ⟨h1, fun k hk => ?_⟩
      rcases List.mem_cons.1 hk with rfl | hk
      · obtain ⟨v, hv⟩ := Option.isSome_iff_exists.1 hx
        exact ⟨v, (h.all k v).2 (.inr ((lookup_mem h.proper k v).1 hv))⟩
      · exact h2 k hk
    · cases e

theorem not_got_popAll (ks : List String) (s : St V) (k : String) (hk : k ∉ ks) : (popAll s ks).got k = s.got k := by
  unfold popAll
  induction ks generalizing s with
  | nil => rfl
  | cons x ks ih =>
    rw [List.mem_cons, not_or] at hk
    rw [List.foldl_cons, ih _ hk.2]
    exact if_neg hk.1

/-- C108, the other Weyl scalars: if a transformation of the data `psi_n`, with a boost or a supertranslation, returns, then the modes of `psi_m` were passed for all `m > n`, and they are used; those for `m ≤ n` are reported if they are passed. -/
theorem weyl_scalars (trivial : (String → Option V) → Bool) (ht : ∀ g, trivial g = false) (n : Nat) (hn : n < 4) (kw : Dict V) (hp : Proper kw) (c : Call V) (hc : transform trivial (n + 1) kw = .ok c) (m : Nat) (hm : m ≤ 4) :
    (n < m → ∃ v, (weylName m, v) ∈ kw ∧ c.got (weylName m) = some v) ∧ (m ≤ n → ∀ v, (weylName m, v) ∈ kw → (weylName m, v) ∈ c.warned) := by
  have hall := inv_pop (inv_start hp) "ell_max"
  have hi := inv_popAll gridNames hall
  have hc' := hc
  unfold transform fromModes at hc'
  simp only [if_pos (show trivial (popAll (pop (start kw) "ell_max") gridNames).got = false ∧ 1 ≤ n + 1 ∧ n + 1 ≤ 4 from ⟨ht _, by omega, by omega⟩)] at hc'
  rcases hr : popRequired (popAll (pop (start kw) "ell_max") gridNames) (required (n + 1)) with e | s'
  · rw [hr, error_bind] at hc'
    cases hc'
  rw [hr, ok_bind] at hc'
  obtain rfl := (Except.ok.inj hc').symm
  obtain ⟨rfl, hk⟩ := required_spec _ hi hr
  constructor
  · intro h
    have hmem : weylName m ∈ required (n + 1) := by
      interval_cases m <;> interval_cases n <;> first | omega | decide
    obtain ⟨v, hv⟩ := hk _ hmem
    exact ⟨v, hv, got_popAll _ hi _ v hmem hv⟩
  · intro h v hv
    have hmem : weylName m ∉ "ell_max" :: gridNames ++ required (n + 1) := by
      interval_cases m <;> interval_cases n <;> first | omega | decide
    rw [List.cons_append, List.mem_cons, List.mem_append, not_or, not_or] at hmem
    rcases ((transform_heard trivial (n + 1)).2 kw hp _ hc).1 _ v hv with h1 | h1
    · have h2 : (popAll (popAll (pop (start kw) "ell_max") gridNames) (required (n + 1))).got (weylName m) = some v := h1.1
      rw [not_got_popAll _ _ _ hmem.2.2, not_got_popAll _ _ _ hmem.2.1] at h2
      have h3 : (pop (start kw) "ell_max").got (weylName m) = none := if_neg hmem.1
      rw [h3] at h2
      cases h2
    · exact h1.2

/-- A call with a misspelled name: `WaveformModes.transform` warns of it. -/
example : ∃ c, transform (V := Nat) (fun _ => true) 7 [("boost_velocity", 1), ("spacetranslation", 2)] = .ok c ∧ c.got "boost_velocity" = some 1 ∧ c.warned = [("spacetranslation", 2)] := ⟨_, rfl, rfl, rfl⟩

/-- `psi4_modes` is used for `psi3`, and reported for a strain. -/
example : (∃ c, transform (V := Nat) (fun _ => false) 4 [("psi4_modes", 1)] = .ok c ∧ c.got "psi4_modes" = some 1 ∧ c.warned = []) ∧ ∃ c, transform (V := Nat) (fun _ => false) 7 [("psi4_modes", 1)] = .ok c ∧ c.warned = [("psi4_modes", 1)] :=
  ⟨⟨_, rfl, rfl, rfl⟩, ⟨_, rfl, rfl⟩⟩

/-- A waveform of which `ell_min` is given together with an object to be copied: reported. -/
example : ∃ c, modesInit (V := Nat) .object [("ell_min", 3)] = .ok c ∧ c.got "ell_min" = none ∧ c.warned = [("ell_min", 3)] := ⟨_, rfl, rfl, rfl⟩

end Verif.Props.Keywords
