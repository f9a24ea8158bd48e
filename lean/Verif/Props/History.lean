import Verif.Lemmas.History

/-!
# C14: the history log
-/

namespace Verif.Props.History
open Verif.History Verif.Spec.History

/-- C14.  The history of every existing object only grows at the end, whatever the program does,
whether or not it ends with an exception. -/
theorem history_append_only (p : Prog) (h : Heap) (j : Nat) (hj : j < h.size) :
    h.size ≤ (run p h).1.size ∧ (h.obj j).history <+: ((run p h).1.obj j).history := by
  induction p generalizing h with
  | done => exact ⟨Nat.le_refl _, List.prefix_refl _⟩
  | raise => exact ⟨Nat.le_refl _, List.prefix_refl _⟩
  | append i hist extra k ih =>
    obtain ⟨h1, h2⟩ := ih (h.set i (appendHistory (h.obj i) hist extra)) hj
    refine ⟨h1, List.IsPrefix.trans ?_ h2⟩
    by_cases e : j = i
    · subst e; rw [set_obj_self]; exact List.prefix_append _ _
    · rw [set_obj_ne _ _ e]; exact List.prefix_refl _
  | dec i k ih =>
    obtain ⟨h1, h2⟩ := ih (h.set i { h.obj i with depth := (h.obj i).depth - 1 }) hj
    refine ⟨h1, List.IsPrefix.trans ?_ h2⟩
    by_cases e : j = i
    · subst e; rw [set_obj_self]; exact List.prefix_refl _
    · rw [set_obj_ne _ _ e]; exact List.prefix_refl _
  | clone i k ih =>
    obtain ⟨h1, h2⟩ := ih ⟨h.size + 1, fun j => if j = h.size then h.obj i else h.obj j⟩
      (by show j < h.size + 1; omega)
    refine ⟨Nat.le_trans (Nat.le_succ _) h1, List.IsPrefix.trans ?_ h2⟩
    show (h.obj j).history <+: (if j = h.size then h.obj i else h.obj j).history
    rw [if_neg (by omega)]; exact List.prefix_refl _
  | call i b k ihb ihk =>
    have henter : (h.obj j).history <+: ((h.set i (enter (h.obj i))).obj j).history := by
      by_cases e : j = i
      · subst e
        rw [set_obj_self]
        unfold enter
        simp only
        split
        · exact List.prefix_append _ _
        · exact List.prefix_refl _
      · rw [set_obj_ne _ _ e]; exact List.prefix_refl _
    obtain ⟨b1, b2⟩ := ihb (h.set i (enter (h.obj i))) hj
    obtain ⟨h', ok, hb⟩ : ∃ h' ok, run b (h.set i (enter (h.obj i))) = (h', ok) := ⟨_, _, rfl⟩
    rw [hb] at b1 b2
    have b1' : h.size ≤ h'.size := b1
    cases ok with
    | false =>
      rw [run_call_fail hb]
      exact ⟨b1, henter.trans b2⟩
    | true =>
      rw [run_call_ok hb]
      obtain ⟨k1, k2⟩ := ihk (h'.set i { h'.obj i with depth := (h.obj i).depth })
        (by show j < h'.size; omega)
      refine ⟨Nat.le_trans b1' k1, (henter.trans b2).trans (List.IsPrefix.trans ?_ k2)⟩
      by_cases e : j = i
      · subst e; rw [set_obj_self]; exact List.prefix_refl _
      · rw [set_obj_ne _ _ e]; exact List.prefix_refl _

/-- C14.  A decorated method that returns normally leaves the object's depth as it was, whatever
its body does. -/
theorem method_restores_depth (i : Nat) (body : Prog) (h h' : Heap)
    (hr : run (.method i body) h = (h', true)) : (h'.obj i).depth = (h.obj i).depth := by
  obtain ⟨h1, ok, hb⟩ : ∃ h1 ok, run body (h.set i (enter (h.obj i))) = (h1, ok) := ⟨_, _, rfl⟩
  unfold Prog.method at hr
  cases ok with
  | false => rw [run_call_fail hb] at hr; simp at hr
  | true =>
    rw [run_call_ok hb] at hr
    simp only [run, Prod.mk.injEq, and_true] at hr
    rw [← hr, set_obj_self]

/-- C14.  The history is a script: after any sequence of method calls at depth 0, the lines that
are neither blank nor comments are the old ones followed by the entries of the recorded
outermost calls, in order; everything written by nested calls is a comment; the depth is 0. -/
theorem session_script (i : Nat) (p : Prog) (es : List (List Char)) (hp : Session i p es) (h : Heap)
    (hd : (h.obj i).depth = 0) :
    ∃ h', run p h = (h', true) ∧ (h'.obj i).depth = 0 ∧ (∀ j, j ≠ i → h'.obj j = h.obj j) ∧
      script (h'.obj i).history = script (h.obj i).history ++ script (es.flatMap splitLines) := by
  induction hp generalizing h with
  | nil => exact ⟨h, rfl, hd, fun _ _ => rfl, by simp [script]⟩
  | recorded entry body k es hb _ ih =>
    obtain ⟨h1, new1, hr1, hx1, hc1⟩ := inner_spec hb (h.set i (enter (h.obj i)))
      (by rw [set_obj_self, enter_zero hd]; exact Int.le_refl 1)
    obtain ⟨h2, hr2, hs2, ho2, hd2, hh2⟩ := run_record i entry h1
    have hbody : run (body.seq (.record i entry)) (h.set i (enter (h.obj i))) = (h2, true) := by
      rw [run_seq_ok hr1, hr2]
    have dep1 : (h1.obj i).depth = 1 := by rw [hx1.depth, set_obj_self, enter_zero hd]
    obtain ⟨h3, hr3, hd3, ho3, hs3⟩ := ih (h2.set i { h2.obj i with depth := (h.obj i).depth })
      (by rw [set_obj_self]; exact hd)
    refine ⟨h3, by rw [run_call_ok hbody]; exact hr3, hd3, ?_, ?_⟩
    · intro j hj
      rw [ho3 j hj, set_obj_ne _ _ hj, ho2 j hj, hx1.others j hj, set_obj_ne _ _ hj]
    · rw [hs3, set_obj_self]
      show script (h2.obj i).history ++ _ = _
      rw [hh2, hx1.history, set_obj_self, enter_zero hd, dep1]
      show script (((h.obj i).history ++ [[]] ++ new1) ++ (splitLines entry).map fun l => [] ++ l) ++ _ = _
      simp only [List.nil_append, List.map_id', script_append, script_commented hc1,
        List.flatMap_cons, List.append_nil]
      simp [script, isCode]
  | unrecorded body k es hb _ ih =>
    obtain ⟨h1, new1, hr1, hx1, hc1⟩ := inner_spec hb (h.set i (enter (h.obj i)))
      (by rw [set_obj_self, enter_zero hd]; exact Int.le_refl 1)
    obtain ⟨h3, hr3, hd3, ho3, hs3⟩ := ih (h1.set i { h1.obj i with depth := (h.obj i).depth })
      (by rw [set_obj_self]; exact hd)
    refine ⟨h3, by rw [run_call_ok hr1]; exact hr3, hd3, ?_, ?_⟩
    · intro j hj
      rw [ho3 j hj, set_obj_ne _ _ hj, hx1.others j hj, set_obj_ne _ _ hj]
    · rw [hs3, set_obj_self]
      show script (h1.obj i).history ++ _ = _
      rw [hx1.history, set_obj_self, enter_zero hd]
      simp only [script_append, script_commented hc1, List.append_nil]
      simp [script, isCode]

/-- A session is also a possible method body. -/
theorem session_inner {i : Nat} {p : Prog} {es : List (List Char)} (hp : Session i p es) : Inner i p := by
  induction hp with
  | nil => exact .done
  | recorded entry body k es hb _ ih => exact .recorded entry body k hb ih
  | unrecorded body k es hb _ ih => exact .unrecorded body k hb ih

/-- The blank line that the wrapper adds at depth 0. -/
def blank (d : Int) : List Line := if d = 0 then [[]] else []

theorem enter_eq {o : Obj} (h : 0 ≤ o.depth) :
    enter o = { depth := o.depth + 1, history := o.history ++ blank o.depth } := by
  by_cases e : o.depth = 0
  · rw [enter_zero e]; simp [blank, e]
  · rw [enter_pos (by omega)]; simp [blank, e]

/-- C14.  A method that returns a new waveform (copies, slices, parity operations, ...), called at
any depth `d`, returns an object of depth `d` whose history is that of the original, some comments,
and the entry of the call at depth `d`; the original keeps its depth and only gains a blank line,
and all other objects are unchanged. -/
theorem returns_spec (i w : Nat) (p : Prog) (e : List Char) (hp : Returns i w p e) (h : Heap)
    (hw : h.size = w) (hi : i < w) (hd : 0 ≤ (h.obj i).depth) :
    ∃ h' notes, run p h = (h', true) ∧ h'.size = w + 1 ∧
      (∀ j, j ≠ i → j ≠ w → h'.obj j = h.obj j) ∧
      h'.obj i = { depth := (h.obj i).depth, history := (h.obj i).history ++ blank (h.obj i).depth } ∧
      (h'.obj w).depth = (h.obj i).depth ∧
      (h'.obj w).history = (h.obj i).history ++ blank (h.obj i).depth ++ notes ++
        (splitLines e).map (fun l => hashes (h.obj i).depth ++ l) ∧
      ∀ l ∈ notes, Commented l := by
  induction hp generalizing h with
  | copy entry =>
    let h0 := h.set i (enter (h.obj i))
    let h1 : Heap := ⟨h0.size + 1, fun j => if j = h0.size then h0.obj i else h0.obj j⟩
    have hsz : h0.size = w := hw
    have h1w : h1.obj w = enter (h.obj i) := by
      show (if w = h0.size then h0.obj i else h0.obj w) = _
      rw [if_pos hsz.symm]; exact set_obj_self _ _ _
    have h1i : h1.obj i = enter (h.obj i) := by
      show (if i = h0.size then h0.obj i else h0.obj i) = _
      rw [ite_self]; exact set_obj_self _ _ _
    obtain ⟨h2, hr2, hs2, ho2, hd2, hh2⟩ := run_record w entry h1
    rw [h1w, enter_eq hd] at hd2 hh2
    have hbody : run (.clone i (.record w entry)) (h.set i (enter (h.obj i))) = (h2, true) := hr2
    refine ⟨h2.set i { h2.obj i with depth := (h.obj i).depth }, [], ?_, ?_, ?_, ?_, ?_, ?_, by simp⟩
    · unfold Prog.method; rw [run_call_ok hbody]; rfl
    · rw [set_size, hs2]; show h0.size + 1 = w + 1; omega
    · intro j hj1 hj2
      rw [set_obj_ne _ _ hj1, ho2 j hj2]
      show (if j = h0.size then h0.obj i else h0.obj j) = _
      rw [if_neg (by omega)]
      exact set_obj_ne _ _ hj1
    · rw [set_obj_self, ho2 i (by omega), h1i, enter_eq hd]
    · rw [set_obj_ne _ _ (by omega), hd2]; simp only; omega
    · rw [set_obj_ne _ _ (by omega), hh2]
      simp only [List.append_nil]
      rw [show (h.obj i).depth + 1 - 1 = (h.obj i).depth by omega]
  | nest p q e entry _ hq ih =>
    have hd0 : ((h.set i (enter (h.obj i))).obj i).depth = (h.obj i).depth + 1 := by
      rw [set_obj_self, enter_eq hd]
    obtain ⟨h1, notes, hr1, hs1, ho1, hi1, hdw1, hhw1, hc1⟩ := ih (h.set i (enter (h.obj i))) hw
      (by omega)
    have hbl : blank ((h.obj i).depth + 1) = [] := by
      unfold blank; rw [if_neg (by omega)]
    rw [hd0] at hi1 hdw1 hhw1
    rw [hbl, set_obj_self, enter_eq hd] at hi1 hhw1
    obtain ⟨h2, new2, hr2, hx2, hc2⟩ := inner_spec hq h1 (by omega)
    obtain ⟨h3, hr3, hs3, ho3, hd3, hh3⟩ := run_record w entry h2
    have hbody : run (p.seq (q.seq (.record w entry))) (h.set i (enter (h.obj i))) = (h3, true) := by
      rw [run_seq_ok hr1, run_seq_ok hr2, hr3]
    refine ⟨h3.set i { h3.obj i with depth := (h.obj i).depth },
      notes ++ (splitLines e).map (fun l => hashes ((h.obj i).depth + 1) ++ l) ++ new2,
      ?_, ?_, ?_, ?_, ?_, ?_, ?_⟩
    · unfold Prog.method; rw [run_call_ok hbody]; rfl
    · rw [set_size, hs3, hx2.size, hs1]
    · intro j hj1 hj2
      rw [set_obj_ne _ _ hj1, ho3 j hj2, hx2.others j hj2, ho1 j hj1 hj2, set_obj_ne _ _ hj1]
    · rw [set_obj_self, ho3 i (by omega), hx2.others i (by omega), hi1]
      simp
    · rw [set_obj_ne _ _ (by omega), hd3, hx2.depth, hdw1]; omega
    · rw [set_obj_ne _ _ (by omega), hh3, hx2.history, hhw1, hx2.depth, hdw1,
        show (h.obj i).depth + 1 - 1 = (h.obj i).depth by omega]
      simp
    · intro l hl
      simp only [List.mem_append] at hl
      rcases hl with (hl | hl) | hl
      · exact hc1 l hl
      · obtain ⟨l', _, rfl⟩ := List.mem_map.mp hl
        exact hashes_commented (by omega) l'
      · exact hc2 l hl

/-- The methods of the model have the form required by `returns_spec`. -/
theorem copy_returns (i w : Nat) (e : List Char) : Returns i w (copy i w e) e := .copy e

theorem deepcopy_returns (i w : Nat) (e1 e : List Char) : Returns i w (deepcopy i w e1 e) e :=
  .nest _ .done e1 e (.copy e1) .done

theorem getitem_returns (i w : Nat) (e1 e2 e : List Char) : Returns i w (getitem i w e1 e2 e) e :=
  .nest _ .done e2 e (.nest _ .done e1 e2 (.copy e1) .done) .done

theorem parityConjugate_returns (i w : Nat) (e1 e2 e3 e : List Char) :
    Returns i w (parityConjugate i w e1 e2 e3 e) e :=
  .nest _ .done e3 e (getitem_returns i w e1 e2 e3) .done

theorem paritySymmetricPart_returns (i w : Nat) (e1 e2 e3 e4 e : List Char) :
    Returns i w (paritySymmetricPart i w e1 e2 e3 e4 e) e :=
  .nest _ .done e4 e (parityConjugate_returns i w e1 e2 e3 e4) .done

/-- C14 (finding).  `to_inertial_frame`, called by the user at depth 0, adds nothing to the script:
it and the rotation it makes are recorded as comments only.  The same holds for
`to_coprecessing_frame` and `to_corotating_frame`, which end the same way. -/
theorem to_inertial_frame_not_recorded (i : Nat) (e1 e2 : List Char) (h : Heap)
    (hd : (h.obj i).depth = 0) :
    ∃ h', run (toInertialFrame i e1 e2) h = (h', true) ∧
      script (h'.obj i).history = script (h.obj i).history := by
  have hb : Inner i (.seq (rotateDecompositionBasis i e1) (.append i [e2] 0 .done)) :=
    .recorded e1 .done _ .done (.append _ _ _ (Int.le_refl 0) .done)
  obtain ⟨h', hr, _, _, hs⟩ := session_script i _ [] (.unrecorded _ .done [] hb .nil) h hd
  exact ⟨h', hr, by simpa [script] using hs⟩

/-- C14 (finding).  The same for `truncate` and the conversions to and from conjugate pairs. -/
theorem truncate_not_recorded (i : Nat) (e : List Char) (h : Heap) (hd : (h.obj i).depth = 0) :
    ∃ h', run (truncate i e) h = (h', true) ∧
      script (h'.obj i).history = script (h.obj i).history := by
  obtain ⟨h', hr, _, _, hs⟩ := session_script i _ []
    (.unrecorded _ .done [] (.append [e] 0 .done (Int.le_refl 0) .done) .nil) h hd
  exact ⟨h', hr, by simpa [script] using hs⟩

/-- `n` nested method calls, the innermost of which raises. -/
def nestedRaise (i : Nat) : Nat → Prog
  | 0 => .raise
  | n + 1 => .method i (nestedRaise i n)

/-- C14 (finding).  An exception raised under `n` nested calls leaves the depth `n` too large. -/
theorem raise_leaks_depth (i n : Nat) (h : Heap) :
    ∃ h', run (nestedRaise i n) h = (h', false) ∧ (h'.obj i).depth = (h.obj i).depth + n := by
  induction n generalizing h with
  | zero => exact ⟨h, rfl, by simp⟩
  | succ n ih =>
    obtain ⟨h', hr, hd⟩ := ih (h.set i (enter (h.obj i)))
    refine ⟨h', run_call_fail hr, ?_⟩
    rw [hd, set_obj_self]
    have : (enter (h.obj i)).depth = (h.obj i).depth + 1 := by
      unfold enter; simp only; split <;> rfl
    rw [this]; push_cast; omega

/-- C14 (finding).  Once an exception has been caught by the user, no later method call is
recorded as code any more. -/
theorem after_raise_nothing_recorded (i n : Nat) (hn : 1 ≤ n) (p : Prog) (es : List (List Char))
    (hp : Session i p es) (h h1 : Heap) (hd : (h.obj i).depth = 0)
    (hr : run (nestedRaise i n) h = (h1, false)) :
    ∃ h2, run p h1 = (h2, true) ∧ script (h2.obj i).history = script (h1.obj i).history := by
  obtain ⟨h', hr', hd'⟩ := raise_leaks_depth i n h
  rw [hr] at hr'
  have e : h1 = h' := (Prod.mk.inj hr').1
  obtain ⟨h2, new, hr2, hx, hc⟩ := inner_spec (session_inner hp) h1 (by rw [e, hd', hd]; omega)
  exact ⟨h2, hr2, by rw [hx.history, script_append, script_commented hc, List.append_nil]⟩

/-- The full claim with exceptions is false: after a failed call the next, successful, call is not
in the script. -/
theorem exceptions_break_script :
    ∃ (h h1 h2 : Heap) (e : List Char), (h.obj 0).depth = 0 ∧
      run (.method 0 .raise) h = (h1, false) ∧
      run (rotateDecompositionBasis 0 e) h1 = (h2, true) ∧ e ∉ (h2.obj 0).history := by
  refine ⟨⟨1, fun _ => ⟨0, []⟩⟩, _, _, ['r'], rfl, rfl, rfl, ?_⟩
  decide

-- A session with a nested call, to show that the hypotheses can be met.
example : Session 0 (.call 0 ((.call 0 (Prog.seq .done (.record 0 ['a'])) .done : Prog).seq
    (.record 0 ['b'])) (.call 0 (Prog.seq .done (.record 0 ['c'])) .done)) [['b'], ['c']] :=
  .recorded _ _ _ _ (.recorded _ _ _ .done .done) (.recorded _ _ _ _ .done .nil)
example : ((run (.call 0 ((.call 0 (Prog.seq .done (.record 0 ['a'])) .done : Prog).seq
    (.record 0 ['b'])) .done) ⟨1, fun _ => ⟨0, []⟩⟩).1.obj 0).history =
    [[], ['#', ' ', 'a'], ['b']] := by decide

end Verif.Props.History
