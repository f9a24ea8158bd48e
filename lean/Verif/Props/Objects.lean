import Verif.Model.Objects

/-!
# C15: waveform numbers and independence of copies
-/

namespace Verif.Props.Objects
open Verif.Objects

/-- Programs without unpickling. -/
def Op.noUnpickle : Op → Prop
  | .unpickle _ _ => False
  | _ => True

/-- Every object's number is below its class's counter, and later objects of a class have larger
numbers. -/
structure Numbered (s : State) : Prop where
  below : ∀ o ∈ s.objs, o.num < s.counter o.cls
  increasing : ∀ (i j : Nat) o p, i < j → s.objs[i]? = some o → s.objs[j]? = some p → o.cls = p.cls →
    o.num < p.num

theorem counter_increment_self (s : State) (c : Nat) : (s.increment c).counter c = s.counter c + 1 := by
  unfold State.increment State.counter
  split <;> simp_all

theorem counter_increment_le (s : State) (c d : Nat) : s.counter d ≤ (s.increment c).counter d := by
  unfold State.increment State.counter
  by_cases hc : c = 0
  · simp only [hc, if_true]
    split
    · omega
    · cases s.own d <;> simp
  · simp only [hc, if_false]
    split
    · omega
    · by_cases hd : d = c
      · subst hd; simp
      · simp [hd]

@[simp] theorem alloc_counter (s : State) (v : Content) (c : Nat) : (s.alloc v).1.counter c = s.counter c := rfl
@[simp] theorem alloc_objs (s : State) (v : Content) : (s.alloc v).1.objs = s.objs := rfl
@[simp] theorem write_counter (s : State) (r : Nat) (v : Content) (c : Nat) :
    (s.write r v).counter c = s.counter c := rfl
@[simp] theorem write_objs (s : State) (r : Nat) (v : Content) : (s.write r v).objs = s.objs := rfl
@[simp] theorem increment_objs (s : State) (c : Nat) : (s.increment c).objs = s.objs := by
  unfold State.increment; split <;> rfl
@[simp] theorem arg_counter (s : State) (a : Option Nat) (c : Nat) : (s.arg a).1.counter c = s.counter c := by
  cases a <;> rfl
@[simp] theorem arg_objs (s : State) (a : Option Nat) : (s.arg a).1.objs = s.objs := by
  cases a <;> rfl

/-- Shape of the results of `construct` and `copy`. -/
theorem construct_shape (s : State) (c : Nat) (t f d h : Option Nat) (line : Nat) :
    ∃ o : Obj, o.cls = c ∧ o.num = s.counter c ∧ (s.construct c t f d h line).objs = s.objs ++ [o] ∧
      ∀ e, (s.construct c t f d h line).counter e = (s.increment c).counter e := by
  refine ⟨_, ?_, ?_, rfl_objs s c t f d h line, ?_⟩
  · rfl
  · rfl
  · intro e
    unfold State.construct State.appendHistory
    simp only [write_counter]
    show ((((s.increment c).arg t).1.arg f).1.arg d).1.arg h |>.1.counter e = _
    simp
where
  rfl_objs (s : State) (c : Nat) (t f d h : Option Nat) (line : Nat) :
      (s.construct c t f d h line).objs = s.objs ++
        [⟨c, s.counter c, ((s.increment c).arg t).2, (((s.increment c).arg t).1.arg f).2,
          ((((s.increment c).arg t).1.arg f).1.arg d).2,
          (((((s.increment c).arg t).1.arg f).1.arg d).1.arg h).2⟩] := by
    unfold State.construct State.appendHistory
    simp

theorem copy_shape (s : State) (o : Obj) (line : Nat) :
    ∃ w : Obj, w.cls = o.cls ∧ w.num = s.counter o.cls ∧ (s.copy o line).objs = s.objs ++ [w] ∧
      ∀ e, (s.copy o line).counter e = (s.increment o.cls).counter e := by
  refine ⟨⟨o.cls, s.counter o.cls, (s.increment o.cls).next, (s.increment o.cls).next + 1,
    (s.increment o.cls).next + 2, (s.increment o.cls).next + 3⟩, rfl, rfl, ?_, fun e => rfl⟩
  unfold State.copy State.appendHistory
  simp [State.alloc]

theorem numbered_append {s s' : State} (h : Numbered s) (w : Obj) (c : Nat) (hc : w.cls = c)
    (hn : w.num = s.counter c) (ho : s'.objs = s.objs ++ [w])
    (hcount : ∀ e, s'.counter e = (s.increment c).counter e) : Numbered s' := by
  constructor
  · intro o hm
    rw [ho, List.mem_append] at hm
    rw [hcount]
    rcases hm with hm | hm
    · exact Nat.lt_of_lt_of_le (h.below o hm) (counter_increment_le s c o.cls)
    · rw [List.mem_singleton] at hm
      subst hm
      rw [hc, counter_increment_self, hn]; omega
  · intro i j o p hij hi hj hcls
    rw [ho] at hi hj
    have hjl : j < (s.objs ++ [w]).length := (List.getElem?_eq_some_iff.mp hj).1
    rw [List.length_append, List.length_singleton] at hjl
    rw [List.getElem?_append_left (by omega)] at hi
    by_cases e : j < s.objs.length
    · rw [List.getElem?_append_left e] at hj
      exact h.increasing i j o p hij hi hj hcls
    · have : j = s.objs.length := by omega
      subst this
      simp at hj
      subst hj
      have := h.below o (List.mem_of_getElem? hi)
      rw [hn, ← hc, ← hcls]; exact this

/-- C15.  In any program without unpickling, the objects of each class get strictly increasing
numbers in the order of creation; failed constructor calls only leave gaps. -/
theorem nums_increasing (ops : List Op) (hops : ∀ o ∈ ops, Op.noUnpickle o) :
    Numbered (runOps init ops) := by
  have key : ∀ (ops : List Op) (s : State), Numbered s → (∀ o ∈ ops, Op.noUnpickle o) →
      Numbered (runOps s ops) := by
    intro ops
    induction ops with
    | nil => intro s hs _; exact hs
    | cons op ops ih =>
      intro s hs hops
      refine ih (step s op) ?_ (fun o ho => hops o (by simp [ho]))
      have hop := hops op (by simp)
      cases op with
      | construct c t f d h line =>
        obtain ⟨o, h1, h2, h3, h4⟩ := construct_shape s c t f d h line
        exact numbered_append hs o c h1 h2 h3 h4
      | constructFails c =>
        constructor
        · intro o ho
          have : (step s (.constructFails c)).objs = s.objs := increment_objs s c
          rw [this] at ho
          exact Nat.lt_of_lt_of_le (hs.below o ho) (counter_increment_le s c o.cls)
        · have : (step s (.constructFails c)).objs = s.objs := increment_objs s c
          rw [this]; exact hs.increasing
      | copy i line =>
        simp only [step]
        cases hi : s.objs[i]? with
        | none => exact hs
        | some o =>
          obtain ⟨w, h1, h2, h3, h4⟩ := copy_shape s o line
          exact numbered_append hs w o.cls h1 h2 h3 h4
      | unpickle i line => exact absurd hop (by simp [Op.noUnpickle])
      | newArray v => exact ⟨hs.below, hs.increasing⟩
      | write r v => exact ⟨hs.below, hs.increasing⟩
  exact key ops init ⟨by simp [init], by simp [init]⟩ hops

/-- C15.  So two different objects of one class never have the same number. -/
theorem nums_unique (ops : List Op) (hops : ∀ o ∈ ops, Op.noUnpickle o) (i j : Nat) (o p : Obj)
    (hi : (runOps init ops).objs[i]? = some o) (hj : (runOps init ops).objs[j]? = some p)
    (hij : i ≠ j) : ¬ (o.cls = p.cls ∧ o.num = p.num) := by
  have h := nums_increasing ops hops
  rintro ⟨hc, hn⟩
  rcases Nat.lt_or_gt_of_ne hij with hlt | hlt
  · have := h.increasing i j o p hlt hi hj hc; omega
  · have := h.increasing j i p o hlt hj hi hc.symm; omega

/-- C15 (finding).  Numbers are unique within a class only: a `WaveformBase` and an object of a
subclass can have the same number. -/
theorem nums_shared_across_classes :
    ∃ ops, (∀ o ∈ ops, Op.noUnpickle o) ∧ ∃ o p, (runOps init ops).objs = [o, p] ∧ o.num = p.num := by
  refine ⟨[.construct 1 none none none none 0, .construct 0 none none none none 0], ?_, _, _, rfl, rfl⟩
  intro o ho
  simp only [List.mem_cons, List.not_mem_nil, or_false] at ho
  rcases ho with rfl | rfl <;> trivial

theorem unpickle_shape (s : State) (o : Obj) (line : Nat) :
    ∃ w : Obj, w.cls = o.cls ∧ w.num = s.counter o.cls ∧ (s.unpickle o line).objs = s.objs ++ [w] ∧
      ∀ e, (s.unpickle o line).counter e = s.counter e := by
  refine ⟨⟨o.cls, s.counter o.cls, s.next, s.next + 1, s.next + 2, s.next + 3⟩, rfl, rfl, ?_,
    fun e => rfl⟩
  unfold State.unpickle State.appendHistory
  simp [State.alloc]

/-- C15 (finding).  After unpickling (or `copy.deepcopy`) an object, the next new object of its
class gets the same number as the unpickled one, in every state. -/
theorem unpickle_collides (s : State) (o : Obj) (l1 l2 : Nat) (t f d h : Option Nat) :
    ∃ w v : Obj, ((s.unpickle o l1).construct o.cls t f d h l2).objs = s.objs ++ [w, v] ∧
      w.cls = v.cls ∧ w.num = v.num := by
  obtain ⟨w, h1, h2, h3, h4⟩ := unpickle_shape s o l1
  obtain ⟨v, k1, k2, k3, _⟩ := construct_shape (s.unpickle o l1) o.cls t f d h l2
  exact ⟨w, v, by rw [k3, h3, List.append_assoc]; rfl, by rw [h1, k1], by rw [h2, k2, h4]⟩

/-- Every object's storage is allocated. -/
def Allocated (s : State) : Prop := ∀ o ∈ s.objs, ∀ r ∈ o.refs, r < s.next

/-- Programs pass only allocated arrays to constructors. -/
def Op.argsOk (s : State) : Op → Prop
  | .construct _ t f d h _ => ∀ r, some r ∈ [t, f, d, h] → r < s.next
  | _ => True

/-- Reachable states. -/
inductive Reachable : State → Prop
  | init : Reachable init
  | step (s : State) (op : Op) : Reachable s → Op.argsOk s op → Reachable (step s op)

theorem arg_spec (s : State) (a : Option Nat) (ha : ∀ r, a = some r → r < s.next) :
    s.next ≤ (s.arg a).1.next ∧ (s.arg a).2 < (s.arg a).1.next := by
  cases a with
  | none => simp [State.arg, State.alloc]
  | some r => exact ⟨Nat.le_refl _, ha r rfl⟩

theorem increment_next (s : State) (c : Nat) : (s.increment c).next = s.next := by
  unfold State.increment; split <;> rfl
theorem increment_cell (s : State) (c : Nat) : (s.increment c).cell = s.cell := by
  unfold State.increment; split <;> rfl

theorem reachable_allocated (s : State) (h : Reachable s) : Allocated s := by
  induction h with
  | init => simp [Allocated, init]
  | step s op _ hargs ih =>
    have four : ∀ (s1 : State) (w : Obj) (n : Nat), s.next ≤ n → (∀ r ∈ w.refs, r < n) →
        s1.objs = s.objs ++ [w] → s1.next = n → Allocated s1 := by
      intro s1 w n hn hw ho hnx o hom r hr
      rw [ho, List.mem_append] at hom
      rw [hnx]
      rcases hom with hom | hom
      · exact Nat.lt_of_lt_of_le (ih o hom r hr) hn
      · rw [List.mem_singleton] at hom; subst hom; exact hw r hr
    cases op with
    | construct c t f d h line =>
      have hargs' : ∀ r, some r ∈ [t, f, d, h] → r < s.next := hargs
      have a0 := increment_next s c
      obtain ⟨b1, c1⟩ := arg_spec (s.increment c) t (by
        intro r hr; rw [a0]; exact hargs' r (by simp [← hr]))
      obtain ⟨b2, c2⟩ := arg_spec ((s.increment c).arg t).1 f (by
        intro r hr
        exact Nat.lt_of_lt_of_le (hargs' r (by simp [← hr])) (by omega))
      obtain ⟨b3, c3⟩ := arg_spec (((s.increment c).arg t).1.arg f).1 d (by
        intro r hr
        exact Nat.lt_of_lt_of_le (hargs' r (by simp [← hr])) (by omega))
      obtain ⟨b4, c4⟩ := arg_spec ((((s.increment c).arg t).1.arg f).1.arg d).1 h (by
        intro r hr
        exact Nat.lt_of_lt_of_le (hargs' r (by simp [← hr])) (by omega))
      refine four _ _ _ (by omega : s.next ≤ (((((s.increment c).arg t).1.arg f).1.arg d).1.arg h).1.next)
        ?_ (construct_shape.rfl_objs s c t f d h line) rfl
      intro r hr
      simp only [Obj.refs, List.mem_cons, List.not_mem_nil, or_false] at hr
      rcases hr with rfl | rfl | rfl | rfl <;> omega
    | constructFails c =>
      intro o ho r hr
      have e : (step s (.constructFails c)).objs = s.objs := increment_objs s c
      have e2 : (step s (.constructFails c)).next = s.next := increment_next s c
      rw [e] at ho; rw [e2]; exact ih o ho r hr
    | copy i line =>
      simp only [step]
      cases hi : s.objs[i]? with
      | none => exact ih
      | some o =>
        refine four _ ⟨o.cls, s.counter o.cls, s.next, s.next + 1, s.next + 2, s.next + 3⟩ (s.next + 4)
          (by omega) ?_ ?_ ?_
        · intro r hr
          simp only [Obj.refs, List.mem_cons, List.not_mem_nil, or_false] at hr
          rcases hr with rfl | rfl | rfl | rfl <;> omega
        · unfold State.copy State.appendHistory
          simp [State.alloc, increment_next]
        · unfold State.copy State.appendHistory
          simp [State.alloc, increment_next, State.write]
    | unpickle i line =>
      simp only [step]
      cases hi : s.objs[i]? with
      | none => exact ih
      | some o =>
        refine four _ ⟨o.cls, s.counter o.cls, s.next, s.next + 1, s.next + 2, s.next + 3⟩ (s.next + 4)
          (by omega) ?_ ?_ ?_
        · intro r hr
          simp only [Obj.refs, List.mem_cons, List.not_mem_nil, or_false] at hr
          rcases hr with rfl | rfl | rfl | rfl <;> omega
        · unfold State.unpickle State.appendHistory
          simp [State.alloc]
        · unfold State.unpickle State.appendHistory
          simp [State.alloc, State.write]
    | newArray v =>
      intro o ho r hr
      exact Nat.lt_succ_of_lt (ih o ho r hr)
    | write r v => exact ih

/-- C15.  A copy has the content of the original (the history has one more line), the original is
unchanged, and no storage of the copy is shared with any earlier object. -/
theorem copy_fresh (s : State) (hs : Reachable s) (o : Obj) (ho : o ∈ s.objs) (line : Nat) :
    ∃ w, (s.copy o line).objs = s.objs ++ [w] ∧
      (s.copy o line).cell w.t = s.cell o.t ∧ (s.copy o line).cell w.frame = s.cell o.frame ∧
      (s.copy o line).cell w.data = s.cell o.data ∧
      (s.copy o line).cell w.history = s.cell o.history ++ [line] ∧
      (∀ r, r < s.next → (s.copy o line).cell r = s.cell r) ∧
      (∀ p ∈ s.objs, ∀ r ∈ p.refs, r ∉ w.refs) := by
  have hal := reachable_allocated s hs
  have ht := hal o ho o.t (by simp [Obj.refs])
  have hf := hal o ho o.frame (by simp [Obj.refs])
  have hd := hal o ho o.data (by simp [Obj.refs])
  have hh := hal o ho o.history (by simp [Obj.refs])
  have n1 : o.frame ≠ s.next := by omega
  have n2 : o.data ≠ s.next := by omega
  have n3 : o.history ≠ s.next := by omega
  have n4 : o.data ≠ s.next + 1 := by omega
  have n5 : o.history ≠ s.next + 1 := by omega
  have n6 : o.history ≠ s.next + 2 := by omega
  have n7 : s.next ≠ s.next + 1 + 1 + 1 := by omega
  have n8 : s.next ≠ s.next + 1 + 1 := by omega
  refine ⟨⟨o.cls, s.counter o.cls, s.next, s.next + 1, s.next + 2, s.next + 3⟩, ?_, ?_, ?_, ?_, ?_, ?_, ?_⟩
  · unfold State.copy State.appendHistory
    simp [State.alloc, increment_next]
  · unfold State.copy State.appendHistory
    simp [State.alloc, State.write, increment_next, increment_cell, n7, n8]
  · unfold State.copy State.appendHistory
    simp [State.alloc, State.write, increment_next, increment_cell, n1]
  · unfold State.copy State.appendHistory
    simp [State.alloc, State.write, increment_next, increment_cell, n2, n4]
  · unfold State.copy State.appendHistory
    simp [State.alloc, State.write, increment_next, increment_cell, n3, n5, n6]
  · intro r hr
    have m1 : r ≠ s.next := by omega
    have m2 : r ≠ s.next + 1 := by omega
    have m3 : r ≠ s.next + 2 := by omega
    have m4 : r ≠ s.next + 3 := by omega
    unfold State.copy State.appendHistory
    simp [State.alloc, State.write, increment_next, increment_cell, m1, m2, m3, m4]
  · intro p hp r hr hw
    have := hal p hp r hr
    simp only [Obj.refs, List.mem_cons, List.not_mem_nil, or_false] at hw
    omega

/-- C15.  Whatever is later written into the storage of the copy, no earlier object changes. -/
theorem copy_independent (s : State) (hs : Reachable s) (o : Obj) (ho : o ∈ s.objs) (line : Nat) (w : Obj)
    (hw : (s.copy o line).objs = s.objs ++ [w]) (writes : List (Nat × Content))
    (hwr : ∀ x ∈ writes, x.1 ∈ w.refs) (p : Obj) (hp : p ∈ s.objs) (r : Nat) (hr : r ∈ p.refs) :
    (writes.foldl (fun s x => s.write x.1 x.2) (s.copy o line)).cell r = s.cell r := by
  obtain ⟨w', hw', -, -, -, -, hkeep, hdis⟩ := copy_fresh s hs o ho line
  have e : w = w' := by
    rw [hw] at hw'
    simpa using List.append_cancel_left hw'
  subst e
  have hrn := hdis p hp r hr
  have hlt := reachable_allocated s hs p hp r hr
  have key : ∀ (writes : List (Nat × Content)) (s1 : State), (∀ x ∈ writes, x.1 ∈ w.refs) →
      (writes.foldl (fun s x => s.write x.1 x.2) s1).cell r = s1.cell r := by
    intro writes
    induction writes with
    | nil => intro s1 _; rfl
    | cons x l ih =>
      intro s1 hx
      rw [List.foldl_cons, ih _ (fun y hy => hx y (by simp [hy]))]
      have : r ≠ x.1 := fun e => hrn (e ▸ hx x (by simp))
      simp [State.write, this]
  rw [key writes _ hwr, hkeep r hlt]

/-- C15 (finding).  The keyword constructor does not copy: an object built with the history list of
another one writes its own line into that list, so the other object's history changes. -/
theorem construct_changes_history_argument (s : State) (o : Obj) (c line : Nat) (t f d : Nat) :
    (s.construct c (some t) (some f) (some d) (some o.history) line).cell o.history =
      s.cell o.history ++ [line] := by
  unfold State.construct State.appendHistory
  simp [State.arg, State.write, increment_cell]

-- A reachable state with two objects of one class, to which the theorems apply.
example : Reachable (runOps init [.construct 1 none none none none 7, .copy 0 8]) :=
  .step _ (.copy 0 8) (.step _ (.construct 1 none none none none 7) .init
    (by intro r hr; simp at hr)) trivial
example : (runOps init [.construct 1 none none none none 7, .copy 0 8]).objs =
    [⟨1, 0, 0, 1, 2, 3⟩, ⟨1, 1, 4, 5, 6, 7⟩] := by decide
example : (runOps init [.construct 1 none none none none 7, .unpickle 0 8,
    .construct 1 none none none none 9]).objs.map (·.num) = [0, 1, 1] := by decide

end Verif.Props.Objects
