import Verif.Props.Markers
import Mathlib.Data.List.Induction

/-!
# C29: changes of the data after a run are listed
-/

namespace Verif.Props.MarkersNewer
open Verif Verif.Markers Verif.Spec.Markers Verif.Props.Markers

/-- What programs do to files: they write one, or remove one. -/
inductive Op
  | write (p : Path)
  | remove (p : Path)

def Op.path : Op → Path
  | .write p => p
  | .remove p => p

def after (fs : FS) (ops : List Op) : FS := ops.foldl (fun fs o => match o with
  | .write p => fs.touch p
  | .remove p => fs.remove p) fs

theorem after_write (fs : FS) (l : List Op) (q : Path) : after fs (l ++ [.write q]) = (after fs l).touch q := by
  unfold after
  rw [List.foldl_append]
  rfl

theorem after_remove (fs : FS) (l : List Op) (q : Path) : after fs (l ++ [.remove q]) = (after fs l).remove q := by
  unfold after
  rw [List.foldl_append]
  rfl

/-- No file was written in the future. -/
def Past (fs : FS) : Prop := ∀ p m, fs.mtime p = some m → m < fs.now

theorem past_after (fs : FS) (h : Past fs) (ops : List Op) : Past (after fs ops) := by
  induction ops using List.reverseRecOn with
  | nil => exact h
  | append_singleton l o ih =>
    intro p m hm
    cases o with
    | write q =>
      rw [after_write] at hm ⊢
      simp only [FS.touch] at hm ⊢
      split at hm
      · cases hm; omega
      · have := ih p m hm; omega
    | remove q =>
      rw [after_remove] at hm ⊢
      simp only [FS.remove] at hm ⊢
      split at hm
      · cases hm
      · have := ih p m hm; omega

/-- The clock and a marker that nobody changes, and another file. -/
theorem times_after (fs : FS) (f p : Path) (t : Nat) (hf : fs.mtime f = some t) (ht : t < fs.now) (hp : ∀ m, fs.mtime p = some m → m ≤ t) (ops : List Op) (h : ∀ o ∈ ops, o.path ≠ f) :
    (after fs ops).mtime f = some t ∧ t < (after fs ops).now ∧ ∀ m, (after fs ops).mtime p = some m → (t < m ↔ Op.write p ∈ ops) := by
  induction ops using List.reverseRecOn with
  | nil => exact ⟨hf, ht, fun m hm => ⟨fun h => absurd (hp m hm) (by omega), fun h => nomatch h⟩⟩
  | append_singleton l o ih =>
    obtain ⟨i1, i2, i3⟩ := ih fun o ho => h o (List.mem_append_left _ ho)
    have ho := h o (by simp)
    cases o with
    | write q =>
      rw [after_write]
      simp only [Op.path] at ho
      simp only [FS.touch]
      refine ⟨by rw [if_neg (Ne.symm ho)]; exact i1, by omega, fun m hm => ?_⟩
      split at hm
      · rename_i e
        subst e
        cases hm
        exact ⟨fun _ => by simp, fun _ => i2⟩
      · rename_i e
        rw [i3 m hm, List.mem_append, List.mem_singleton]
        exact ⟨Or.inl, fun x => x.resolve_right fun y => e (by cases y; rfl)⟩
    | remove q =>
      rw [after_remove]
      simp only [Op.path] at ho
      simp only [FS.remove]
      refine ⟨by rw [if_neg (Ne.symm ho)]; exact i1, by omega, fun m hm => ?_⟩
      split at hm
      · cases hm
      · rw [i3 m hm, List.mem_append, List.mem_singleton]
        exact ⟨Or.inl, fun x => x.resolve_right fun y => by cases y⟩

/-- C29: after a run has finished, whatever is done to files other than its marker, `NewerDataThanExtrapolation` lists the run exactly if its data or its metadata have been written since then. -/
theorem changes_listed (fs : FS) (hfs : Past fs) (top topIn : Path) (r : Run) (runs : List Run) (hd : marker .finished top r.1 r.2 ≠ topIn ++ ['/'] ++ r.1 ++ ['/'] ++ r.2)
    (hm : marker .finished top r.1 r.2 ≠ topIn ++ ['/'] ++ r.1 ++ "/metadata.txt".toList) (ops : List Op) (hops : ∀ o ∈ ops, o.path ≠ marker .finished top r.1 r.2)
    (ed : (after (fs.touch (marker .finished top r.1 r.2)) ops).exists (topIn ++ ['/'] ++ r.1 ++ ['/'] ++ r.2) = true)
    (em : (after (fs.touch (marker .finished top r.1 r.2)) ops).exists (topIn ++ ['/'] ++ r.1 ++ "/metadata.txt".toList) = true) :
    r ∈ newer (after (fs.touch (marker .finished top r.1 r.2)) ops) top topIn runs ↔
      r ∈ runs ∧ (Op.write (topIn ++ ['/'] ++ r.1 ++ ['/'] ++ r.2) ∈ ops ∨ Op.write (topIn ++ ['/'] ++ r.1 ++ "/metadata.txt".toList) ∈ ops) := by
  have e0 : "/metadata.txt".toList = ['/', 'm', 'e', 't', 'a', 'd', 'a', 't', 'a', '.', 't', 'x', 't'] := by decide
  rw [e0] at hm em ⊢
  have base : ∀ p, marker .finished top r.1 r.2 ≠ p → _ := fun p hp => times_after (fs.touch (marker .finished top r.1 r.2)) (marker .finished top r.1 r.2) p fs.now (by simp [FS.touch]) (by simp [FS.touch])
    (fun m h => by
      simp only [FS.touch] at h
      rw [if_neg (Ne.symm hp)] at h
      exact Nat.le_of_lt (hfs p m h)) ops hops
  obtain ⟨f1, -, d⟩ := base _ hd
  obtain ⟨-, -, m⟩ := base _ hm
  obtain ⟨td, htd⟩ := Option.isSome_iff_exists.1 ed
  obtain ⟨tm, htm⟩ := Option.isSome_iff_exists.1 em
  rw [newer_spec]
  rw [← d td htd, ← m tm htm]
  constructor
  · rintro ⟨hr, tf, tm', td', a, b, c, h⟩
    rw [f1] at a
    rw [htm] at b
    rw [htd] at c
    cases a
    cases b
    cases c
    exact ⟨hr, h⟩
  · rintro ⟨hr, h⟩
    exact ⟨hr, _, tm, td, f1, htm, htd, h⟩

/-- The hypotheses are met: the data of a run are written again, and those of another one. -/
example : ∃ fs : FS, Past fs ∧
    (("a".toList, "b".toList) : Run) ∈ newer (after (fs.touch (marker .finished "o".toList "a".toList "b".toList)) [.remove "x".toList, .write "i/a/b".toList]) "o".toList "i".toList [("a".toList, "b".toList)] ∧
    (("a".toList, "b".toList) : Run) ∉ newer (after (fs.touch (marker .finished "o".toList "a".toList "b".toList)) [.remove "x".toList, .write "i/c/b".toList]) "o".toList "i".toList [("a".toList, "b".toList)] := by
  let fs : FS := after ⟨fun _ => none, 0⟩ [.write "i/a/b".toList, .write "i/a/metadata.txt".toList]
  have hfs : Past fs := past_after _ (fun _ _ h => by cases h) _
  refine ⟨fs, hfs, ?_, ?_⟩
  · exact (changes_listed fs hfs "o".toList "i".toList ("a".toList, "b".toList) [("a".toList, "b".toList)] (by decide) (by decide) [.remove "x".toList, .write "i/a/b".toList]
      (by intro o ho; simp only [List.mem_cons, List.not_mem_nil, or_false] at ho; rcases ho with rfl | rfl <;> simp only [Op.path] <;> decide) (by decide) (by decide)).2 ⟨by decide, .inl (by simp)⟩
  · intro h
    have := ((changes_listed fs hfs "o".toList "i".toList ("a".toList, "b".toList) [("a".toList, "b".toList)] (by decide) (by decide) [.remove "x".toList, .write "i/c/b".toList]
      (by intro o ho; simp only [List.mem_cons, List.not_mem_nil, or_false] at ho; rcases ho with rfl | rfl <;> simp only [Op.path] <;> decide) (by decide) (by decide)).1 h).2
    simp at this

end Verif.Props.MarkersNewer
