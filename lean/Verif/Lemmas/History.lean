import Verif.Spec.History

namespace Verif.History
open Verif.Spec.History

theorem run_call_ok {i : Nat} {b k : Prog} {h h' : Heap}
    (hb : run b (h.set i (enter (h.obj i))) = (h', true)) :
    run (.call i b k) h = run k (h'.set i { h'.obj i with depth := (h.obj i).depth }) := by
  simp only [run, hb]

theorem run_call_fail {i : Nat} {b k : Prog} {h h' : Heap}
    (hb : run b (h.set i (enter (h.obj i))) = (h', false)) :
    run (.call i b k) h = (h', false) := by
  simp only [run, hb]

theorem run_seq (p q : Prog) (h : Heap) :
    run (p.seq q) h = if (run p h).2 then run q (run p h).1 else ((run p h).1, false) := by
  induction p generalizing h with
  | done => simp [Prog.seq, run]
  | raise => simp [Prog.seq, run]
  | append i hist extra k ih => simp only [Prog.seq, run]; exact ih _
  | dec i k ih => simp only [Prog.seq, run]; exact ih _
  | clone i k ih => simp only [Prog.seq, run]; exact ih _
  | call i b k _ ih =>
    simp only [Prog.seq]
    obtain ⟨h', ok, hb⟩ : ∃ h' ok, run b (h.set i (enter (h.obj i))) = (h', ok) := ⟨_, _, rfl⟩
    cases ok with
    | true => rw [run_call_ok hb, run_call_ok hb]; exact ih _
    | false => rw [run_call_fail hb, run_call_fail hb]; rfl

theorem run_seq_ok {p q : Prog} {h h' : Heap} (hp : run p h = (h', true)) :
    run (p.seq q) h = run q h' := by rw [run_seq, hp]; rfl

@[simp] theorem set_obj_self (h : Heap) (i : Nat) (o : Obj) : (h.set i o).obj i = o := by
  simp [Heap.set]

@[simp] theorem set_obj_ne (h : Heap) {i j : Nat} (o : Obj) (hij : j ≠ i) :
    (h.set i o).obj j = h.obj j := by
  simp [Heap.set, hij]

@[simp] theorem set_size (h : Heap) (i : Nat) (o : Obj) : (h.set i o).size = h.size := rfl

theorem hashes_commented {n : Int} (hn : 1 ≤ n) (l : Line) : Commented (hashes n ++ l) := by
  unfold Commented hashes
  obtain ⟨k, hk⟩ : ∃ k, n.toNat = k + 1 := ⟨n.toNat - 1, by omega⟩
  rw [hk, List.replicate_succ]
  rfl

theorem hashes_zero : hashes 0 = [] := rfl

/-- The new lines of an append. -/
theorem appendHistory_history (o : Obj) (hist : List (List Char)) (extra : Int) :
    (appendHistory o hist extra).history = o.history ++
      (hist.flatMap splitLines).map fun l => hashes (o.depth + extra) ++ l := rfl

theorem enter_pos {o : Obj} (h : 1 ≤ o.depth) : enter o = { o with depth := o.depth + 1 } := by
  unfold enter
  simp only
  rw [if_neg (by omega)]

theorem enter_zero {o : Obj} (h : o.depth = 0) :
    enter o = { depth := 1, history := o.history ++ [[]] } := by
  unfold enter
  simp only
  rw [if_pos h]
  simp [appendHistory, splitLines, h, hashes_zero]

/-- `h'` differs from `h` only in object `i`, which has the same depth and more history. -/
structure Extends (i : Nat) (h h' : Heap) (new : List Line) : Prop where
  size : h'.size = h.size
  others : ∀ j, j ≠ i → h'.obj j = h.obj j
  depth : (h'.obj i).depth = (h.obj i).depth
  history : (h'.obj i).history = (h.obj i).history ++ new

theorem run_record (i : Nat) (entry : List Char) (h : Heap) :
    ∃ h', run (.record i entry) h = (h', true) ∧ h'.size = h.size ∧ (∀ j, j ≠ i → h'.obj j = h.obj j) ∧
      (h'.obj i).depth = (h.obj i).depth - 1 ∧
      (h'.obj i).history = (h.obj i).history ++
        (splitLines entry).map fun l => hashes ((h.obj i).depth - 1) ++ l := by
  refine ⟨_, rfl, rfl, ?_, ?_, ?_⟩
  · intro j hj; simp [hj]
  · simp [appendHistory]
  · simp [appendHistory]

/-- A body run at depth at least 1 only adds comments, and keeps the depth. -/
theorem inner_spec {i : Nat} {p : Prog} (hp : Inner i p) (h : Heap) (hd : 1 ≤ (h.obj i).depth) :
    ∃ h' new, run p h = (h', true) ∧ Extends i h h' new ∧ ∀ l ∈ new, Commented l := by
  induction hp generalizing h with
  | done => exact ⟨h, [], rfl, ⟨rfl, fun _ _ => rfl, rfl, by simp⟩, by simp⟩
  | append hist extra k he _ ih =>
    obtain ⟨h', new, hr, hx, hc⟩ := ih (h.set i (appendHistory (h.obj i) hist extra))
      (by simpa [appendHistory] using hd)
    refine ⟨h', ((hist.flatMap splitLines).map fun l => hashes ((h.obj i).depth + extra) ++ l) ++ new,
      hr, ⟨hx.size, ?_, ?_, ?_⟩, ?_⟩
    · intro j hj; rw [hx.others j hj]; simp [hj]
    · rw [hx.depth]; simp [appendHistory]
    · rw [hx.history, set_obj_self, appendHistory_history, List.append_assoc]
    · intro l hl
      rcases List.mem_append.mp hl with hl | hl
      · obtain ⟨l', _, rfl⟩ := List.mem_map.mp hl
        exact hashes_commented (by omega) l'
      · exact hc l hl
  | recorded entry body k _ _ ihb ihk =>
    obtain ⟨h1, new1, hr1, hx1, hc1⟩ := ihb (h.set i (enter (h.obj i)))
      (by rw [set_obj_self, enter_pos hd]; show 1 ≤ (h.obj i).depth + 1; omega)
    obtain ⟨h2, hr2, hs2, ho2, hd2, hh2⟩ := run_record i entry h1
    have dep1 : (h1.obj i).depth = (h.obj i).depth + 1 := by
      rw [hx1.depth, set_obj_self, enter_pos hd]
    obtain ⟨h3, new3, hr3, hx3, hc3⟩ := ihk (h2.set i { h2.obj i with depth := (h.obj i).depth })
      (by simpa using hd)
    have hb : run (body.seq (.record i entry)) (h.set i (enter (h.obj i))) = (h2, true) := by
      rw [run_seq_ok hr1, hr2]
    refine ⟨h3, new1 ++ (splitLines entry).map (fun l => hashes ((h.obj i).depth) ++ l) ++ new3,
      by simp only [run, hb]; exact hr3, ⟨?_, ?_, ?_, ?_⟩, ?_⟩
    · rw [hx3.size, set_size, hs2, hx1.size, set_size]
    · intro j hj
      rw [hx3.others j hj, set_obj_ne _ _ hj, ho2 j hj, hx1.others j hj, set_obj_ne _ _ hj]
    · rw [hx3.depth, set_obj_self]
    · rw [hx3.history, set_obj_self]
      show (h2.obj i).history ++ new3 = _
      rw [hh2, hx1.history, set_obj_self, enter_pos hd, dep1]
      simp
    · intro l hl
      simp only [List.mem_append] at hl
      rcases hl with (hl | hl) | hl
      · exact hc1 l hl
      · obtain ⟨l', _, rfl⟩ := List.mem_map.mp hl
        exact hashes_commented hd l'
      · exact hc3 l hl
  | unrecorded body k _ _ ihb ihk =>
    obtain ⟨h1, new1, hr1, hx1, hc1⟩ := ihb (h.set i (enter (h.obj i)))
      (by rw [set_obj_self, enter_pos hd]; show 1 ≤ (h.obj i).depth + 1; omega)
    obtain ⟨h3, new3, hr3, hx3, hc3⟩ := ihk (h1.set i { h1.obj i with depth := (h.obj i).depth })
      (by simpa using hd)
    refine ⟨h3, new1 ++ new3, by simp only [run, hr1]; exact hr3, ⟨?_, ?_, ?_, ?_⟩, ?_⟩
    · rw [hx3.size, set_size, hx1.size, set_size]
    · intro j hj
      rw [hx3.others j hj, set_obj_ne _ _ hj, hx1.others j hj, set_obj_ne _ _ hj]
    · rw [hx3.depth, set_obj_self]
    · rw [hx3.history, set_obj_self]
      show (h1.obj i).history ++ new3 = _
      rw [hx1.history, set_obj_self, enter_pos hd]
      simp
    · intro l hl
      rcases List.mem_append.mp hl with hl | hl
      · exact hc1 l hl
      · exact hc3 l hl

theorem script_append (a b : List Line) : script (a ++ b) = script a ++ script b := by
  simp [script]

theorem script_commented {l : List Line} (h : ∀ x ∈ l, Commented x) : script l = [] := by
  unfold script
  rw [List.filter_eq_nil_iff]
  intro x hx
  have := h x hx
  simp [isCode, Commented] at *
  intro _; exact this

end Verif.History
