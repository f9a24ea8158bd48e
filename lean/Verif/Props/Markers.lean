import Verif.Spec.Markers

/-!
# C29: the marker files tell what has happened to a run
-/

namespace Verif.Props.Markers

open Verif.Markers Verif.Spec.Markers

variable {top : Path} {r : Run}

theorem marker_kind (k k' : Kind) (sub data : Path) : marker k top sub data = marker k' top sub data ↔ k = k' := by
  cases k <;> cases k' <;> simp [marker, Kind.name]

theorem mtime_touch (fs : FS) (k k' : Kind) :
    (fs.touch (marker k top r.1 r.2)).mtime (marker k' top r.1 r.2) = if k' = k then some fs.now else fs.mtime (marker k' top r.1 r.2) := by
  simp [FS.touch, marker_kind]

theorem mtime_remove (fs : FS) (k k' : Kind) :
    (if fs.exists (marker k top r.1 r.2) then fs.remove (marker k top r.1 r.2) else fs).mtime (marker k' top r.1 r.2)
      = if k' = k then none else fs.mtime (marker k' top r.1 r.2) := by
  by_cases h : fs.exists (marker k top r.1 r.2)
  · simp [h, FS.remove, marker_kind]
  · rw [if_neg h]
    by_cases hk : k' = k
    · subst hk
      simpa [FS.exists] using h
    · simp [hk]

/-- Whether a marker is there. -/
def has (top : Path) (r : Run) (fs : FS) (k : Kind) : Prop := (fs.mtime (marker k top r.1 r.2)).isSome

/-- What the markers are for each outcome. -/
def Right (top : Path) (r : Run) (fs : FS) : Outcome → Prop
  | .never => ¬ has top r fs .started ∧ ¬ has top r fs .error ∧ ¬ has top r fs .finished
  | .begun => has top r fs .started
  | .running => has top r fs .started ∧ ¬ has top r fs .error ∧ ¬ has top r fs .finished
  | .failed => has top r fs .started ∧ has top r fs .error
  | .succeeded => has top r fs .started ∧ ¬ has top r fs .error ∧ has top r fs .finished

/-- What the position in the code says about the outcome. -/
def At (top : Path) (r : Run) (fs : FS) (o : Outcome) : PC → Prop
  | .start => True
  | .touched => o = .begun
  | .noError => o = .begun ∧ ¬ has top r fs .error
  | .clean => o = .running
  | .inTry => o = .running
  | .returned _ => o = .running
  | .errorWritten _ => o = .failed
  | .finishedWritten => o = .succeeded
  | .handler => o = .running ∨ o = .failed ∨ o = .succeeded
  | .handled => o = .failed
  | .over _ => True

theorem has_keeps {fs fs' : FS} (h : Keeps top r fs fs') (k : Kind) : has top r fs' k ↔ has top r fs k := by simp [has, h k]

theorem right_keeps {fs fs' : FS} (h : Keeps top r fs fs') (o : Outcome) : Right top r fs' o ↔ Right top r fs o := by
  cases o <;> simp [Right, has_keeps h]

theorem at_keeps {fs fs' : FS} (h : Keeps top r fs fs') (o : Outcome) (pc : PC) : At top r fs' o pc ↔ At top r fs o pc := by
  cases pc <;> simp [At, has_keeps h]

theorem invariant (s : FS × PC) (o : Outcome) (h : Reaches top r s o) : Right top r s.1 o ∧ At top r s.1 o s.2 := by
  induction h with
  | init fs h => exact ⟨by simp [Right, has, h], trivial⟩
  | step s s' o _ hs ih =>
    obtain ⟨ih1, ih2⟩ := ih
    cases hs with
    | touch fs => exact ⟨by simp [next, Right, has, mtime_touch], rfl⟩
    | removeError fs =>
      simp only [At] at ih2
      subst ih2
      simp only [Right, has] at ih1
      refine ⟨?_, rfl, ?_⟩
      · simp only [next, Right, has, mtime_remove]; simpa using ih1
      · simp [has, mtime_remove]
    | removeFinished fs =>
      simp only [At] at ih2
      obtain ⟨ho, he⟩ := ih2
      subst ho
      simp only [Right, has] at ih1 he
      refine ⟨?_, rfl⟩
      simp only [next, Right, has, mtime_remove]
      exact ⟨by simpa using ih1, by simpa using he, by simp⟩
    | script fs fs' h =>
      simp only [At] at ih2
      subst ih2
      exact ⟨(right_keeps h _).mpr ih1, rfl⟩
    | call fs fs' ret h =>
      simp only [At] at ih2
      subst ih2
      exact ⟨(right_keeps h _).mpr ih1, rfl⟩
    | writeError fs ret h =>
      simp only [At] at ih2
      subst ih2
      simp only [Right, has] at ih1
      exact ⟨by simpa [next, Right, has, mtime_touch] using ih1.1, rfl⟩
    | returnError fs ret =>
      simp only [At] at ih2
      exact ⟨ih1, trivial⟩
    | writeFinished fs =>
      simp only [At] at ih2
      subst ih2
      simp only [Right, has] at ih1
      refine ⟨?_, rfl⟩
      simp only [next, Right, has, mtime_touch]
      exact ⟨by simpa using ih1.1, by simpa using ih1.2.1, by simp⟩
    | returnFinished fs => exact ⟨ih1, trivial⟩
    | handle fs =>
      simp only [At] at ih2
      refine ⟨?_, rfl⟩
      have hst : has top r fs .started := by
        rcases ih2 with rfl | rfl | rfl
        · exact ih1.1
        · exact ih1.1
        · exact ih1.1
      simpa [next, Right, has, mtime_touch] using hst
    | returnHandled fs => exact ⟨ih1, trivial⟩
    | raiseEarly fs pc h => exact ⟨ih1, trivial⟩
    | raiseLate fs fs' pc hk h =>
      refine ⟨(right_keeps hk _).mpr ih1, ?_⟩
      rcases h with rfl | ⟨ret, rfl⟩ | ⟨ret, rfl⟩ | rfl <;> simp only [At, next] at ih2 ⊢ <;> simp [ih2]
    | raiseHandler fs pc h => exact ⟨ih1, trivial⟩
    | kill fs pc => exact ⟨ih1, trivial⟩
    | again fs ret => exact ⟨ih1, trivial⟩
    | other fs fs' pc h =>
      have hn : next o pc = o := by
        cases pc <;> simp_all [At, next]
      simp only [hn]
      exact ⟨(right_keeps h _).mpr ih1, (at_keeps h _ _).mpr ih2⟩

theorem foldl_filter {α : Type} (p : α → Prop) [DecidablePred p] (l acc : List α) :
    l.foldl (fun acc x => if p x then acc ++ [x] else acc) acc = acc ++ l.filter (fun x => p x) := by
  induction l generalizing acc with
  | nil => simp
  | cons a l ih =>
    rw [List.foldl_cons, ih]
    by_cases h : p a <;> simp [h]

/-- The three lists keep the order of the runs given, each run being listed as often as it is given, by its own markers alone. -/
theorem lists_spec (fs : FS) (runs : List Run) (r : Run) :
    (r ∈ unstarted fs top runs ↔ r ∈ runs ∧ ¬ has top r fs .started) ∧
    (r ∈ unfinished fs top runs ↔ r ∈ runs ∧ has top r fs .started ∧ ¬ has top r fs .error ∧ ¬ has top r fs .finished) ∧
    (r ∈ errored fs top runs ↔ r ∈ runs ∧ has top r fs .error) ∧
    (unstarted fs top runs).Sublist runs ∧ (unfinished fs top runs).Sublist runs ∧ (errored fs top runs).Sublist runs := by
  refine ⟨?_, ?_, ?_, ?_, ?_, ?_⟩
  · rw [unstarted, foldl_filter]; simp [has, FS.exists]
  · rw [unfinished, foldl_filter]; simp [has, FS.exists]
  · rw [errored, foldl_filter]; simp only [has, FS.exists, List.nil_append, List.mem_filter]; exact and_congr_right fun _ => decide_eq_true_iff
  · rw [unstarted, foldl_filter]; exact List.filter_sublist
  · rw [unfinished, foldl_filter]; exact List.filter_sublist
  · rw [errored, foldl_filter]; exact List.filter_sublist

/-- C29: after any history of calls, exceptions and crashes, at every point of a call, the run is listed as unstarted exactly if there has been no call, as
unfinished exactly if the last call is running or was cut off, as errored exactly if it reported an error.

Missing: the moments (also crashes in them) in which a call has begun but not yet removed what earlier calls left (`hb`); there the lists can be
wrong (`killed_rerun_not_listed`). -/
theorem lists_right_partial (fs : FS) (pc : PC) (o : Outcome) (h : Reaches top r (fs, pc) o) (hb : o ≠ .begun) (runs : List Run) (hr : r ∈ runs) :
    (r ∈ unstarted fs top runs ↔ o = .never) ∧ (r ∈ unfinished fs top runs ↔ o = .running) ∧ (r ∈ errored fs top runs ↔ o = .failed) ∧
      (o = .succeeded → has top r fs .finished) := by
  obtain ⟨hi, _⟩ := invariant _ _ h
  obtain ⟨h1, h2, h3, -⟩ := lists_spec (top := top) fs runs r
  rw [h1, h2, h3]
  cases o <;> simp_all [Right]

/-- A call that has begun is not listed as unstarted, whatever was left before. -/
theorem begun_not_unstarted (fs : FS) (pc : PC) (h : Reaches top r (fs, pc) .begun) (runs : List Run) : r ∉ unstarted fs top runs := by
  obtain ⟨hi, _⟩ := invariant _ _ h
  rw [(lists_spec (top := top) fs runs r).1]
  exact fun h => h.2 hi

/-- A rerun removes stale markers: when the command is about to be run, and until it has returned, only `.started` is there. -/
theorem rerun_removes_stale (fs : FS) (pc : PC) (o : Outcome) (h : Reaches top r (fs, pc) o) (hpc : pc = .clean ∨ pc = .inTry ∨ ∃ ret, pc = .returned ret) :
    has top r fs .started ∧ ¬ has top r fs .error ∧ ¬ has top r fs .finished := by
  obtain ⟨hi, ha⟩ := invariant _ _ h
  rcases hpc with rfl | rfl | ⟨ret, rfl⟩ <;> (simp only [At] at ha; subst ha; exact hi)

/-- When a call returns a value other than zero, the run is errored.  -/
theorem nonzero_errored (fs : FS) (ret : Int) (o : Outcome) (h : Reaches top r (fs, .errorWritten ret) o) : has top r fs .error := by
  obtain ⟨hi, ha⟩ := invariant _ _ h
  simp only [At] at ha
  subst ha
  exact hi.2

/-- Different runs have different markers (the name of a data file contains no slash), so that a call does not affect what is reported about other runs. -/
theorem marker_injective (k k' : Kind) (sub sub' data data' : Path) (h : '/' ∉ data) (h' : '/' ∉ data')
    (he : marker k top sub data = marker k' top sub' data') : k = k' ∧ sub = sub' ∧ data = data' := by
  have hk : ∀ k : Kind, '/' ∉ k.name := by intro k; cases k <;> decide
  have key : ∀ (a a' b b' : Path), '/' ∉ b → '/' ∉ b' → a ++ '/' :: b = a' ++ '/' :: b' → a = a' ∧ b = b' := by
    intro a
    induction a with
    | nil =>
      intro a' b b' hb hb' he
      cases a' with
      | nil => simpa using he
      | cons c a' =>
        simp only [List.nil_append, List.cons_append, List.cons.injEq] at he
        exact absurd (by rw [he.2]; simp) hb
    | cons c a ih =>
      intro a' b b' hb hb' he
      cases a' with
      | nil =>
        simp only [List.nil_append, List.cons_append, List.cons.injEq] at he
        exact absurd (by rw [← he.2]; simp) hb'
      | cons c' a' =>
        simp only [List.cons_append, List.cons.injEq] at he
        obtain ⟨rfl, he⟩ := he
        obtain ⟨rfl, rfl⟩ := ih a' b b' hb hb' he
        exact ⟨rfl, rfl⟩
  simp only [marker, List.append_assoc, List.cons_append, List.nil_append] at he
  have he' := List.append_cancel_left he
  simp only [List.cons.injEq, true_and] at he'
  obtain ⟨h1, h2⟩ := key _ _ _ _ (by simp [hk, h]) (by simp [hk, h']) he'
  refine ⟨?_, h1, ?_⟩
  · clear he he' key
    cases k <;> cases k' <;> simp [Kind.name] at h2 ⊢
  · clear he he' key
    cases k <;> cases k' <;> simpa [Kind.name] using h2

/-- Writing or removing a marker leaves the markers of other runs as they are. -/
theorem other_runs_unaffected (fs : FS) (r r' : Run) (k : Kind) (hne : r' ≠ r) (h : '/' ∉ r.2) (h' : '/' ∉ r'.2) :
    Keeps top r' fs (fs.touch (marker k top r.1 r.2)) ∧ Keeps top r' fs (fs.remove (marker k top r.1 r.2)) := by
  have : ∀ k', marker k' top r'.1 r'.2 ≠ marker k top r.1 r.2 := fun k' he => by
    obtain ⟨_, h1, h2⟩ := marker_injective _ _ _ _ _ _ h' h he
    exact hne (Prod.ext h1 h2)
  exact ⟨fun k' => by simp [FS.touch, this], fun k' => by simp [FS.remove, this]⟩

/-- Writing the script is not writing a marker. -/
theorem script_keeps (fs : FS) (stem : Path) :
    Keeps top r fs (fs.touch (top ++ ['/'] ++ r.1 ++ ['/'] ++ script stem)) := by
  intro k
  have : marker k top r.1 r.2 ≠ top ++ ['/'] ++ r.1 ++ ['/'] ++ script stem := by
    intro he
    simp only [marker, script, List.append_assoc] at he
    have he' := List.append_cancel_left (List.append_cancel_left (List.append_cancel_left (List.append_cancel_left he)))
    cases k <;> simp [Kind.name] at he'
  simp only [FS.touch, if_neg this]

/-! ## What the code does not do -/

/-- A finished run that is run again and killed after `.started` has been touched is in none of the lists, although its last call was cut off: it looks finished. -/
theorem killed_rerun_not_listed (top : Path) (r : Run) :
    ∃ fs, Reaches top r (fs, .over none) .begun ∧ (∀ runs, r ∉ unstarted fs top runs ∧ r ∉ unfinished fs top runs ∧ r ∉ errored fs top runs) := by
  let fs0 : FS := ⟨fun _ => none, 0⟩
  have h0 : Reaches top r (fs0, .over none) .never := .init _ (fun _ => rfl)
  have h1 := h0.step _ _ _ (.again _ _)
  have h2 := h1.step _ _ _ (.touch _)
  have h3 := h2.step _ _ _ (.removeError _)
  have h4 := h3.step _ _ _ (.removeFinished _)
  have h5 := h4.step _ _ _ (.script _ _ (fun _ => rfl))
  have h6 := h5.step _ _ _ (.call _ _ 0 (fun _ => rfl))
  have h7 := h6.step _ _ _ (.writeFinished _)
  have h8 := h7.step _ _ _ (.returnFinished _)
  have hs := (invariant _ _ h8).1
  have h9 := h8.step _ _ _ (.again _ _)
  have h10 := h9.step _ _ _ (.touch _)
  have h11 := h10.step _ _ _ (.kill _ _)
  refine ⟨_, h11, fun runs => ?_⟩
  obtain ⟨g1, g2, g3, -⟩ := lists_spec (top := top) _ runs r
  rw [g1, g2, g3]
  simp only [next, Right, has] at hs
  simp only [has, mtime_touch] at hs ⊢
  simp_all

/-- If the last `print` fails, the run has both `.finished` and `.error`, and the call returns zero. -/
theorem finished_and_error (top : Path) (r : Run) :
    ∃ fs, Reaches top r (fs, .over (some 0)) .failed ∧ has top r fs .finished ∧ has top r fs .error := by
  let fs0 : FS := ⟨fun _ => none, 0⟩
  have h0 : Reaches top r (fs0, .over none) .never := .init _ (fun _ => rfl)
  have h1 := h0.step _ _ _ (.again _ _)
  have h2 := h1.step _ _ _ (.touch _)
  have h3 := h2.step _ _ _ (.removeError _)
  have h4 := h3.step _ _ _ (.removeFinished _)
  have h5 := h4.step _ _ _ (.script _ _ (fun _ => rfl))
  have h6 := h5.step _ _ _ (.call _ _ 0 (fun _ => rfl))
  have h7 := h6.step _ _ _ (.writeFinished _)
  have h8 := h7.step _ _ _ (.raiseLate _ _ _ (fun _ => rfl) (by simp))
  have hs := (invariant _ _ h8).1
  have h9 := h8.step _ _ _ (.handle _)
  have h10 := h9.step _ _ _ (.returnHandled _)
  refine ⟨_, h10, ?_, ?_⟩
  · simp only [next, Right, has] at hs
    simp only [has, mtime_touch] at hs ⊢
    simp
  · simp [has, mtime_touch]

/-- A call in which the `try` raised returns zero, like a successful one. -/
theorem exception_returns_zero (fs : FS) (o : Outcome) (h : Reaches top r (fs, .handled) o) :
    has top r fs .error ∧ Step top r (fs, .handled) (fs, .over (some 0)) := by
  obtain ⟨hi, ha⟩ := invariant _ _ h
  simp only [At] at ha
  subst ha
  exact ⟨hi.2, .returnHandled fs⟩

/-- The command names the same script whatever the data file is, and the script that is written only if the data file is called `{0}.h5` (or the like). -/
theorem command_runs (stem s : Path) : RunsScript (command stem) s ↔ s = ['E', 'x', 't', 'r', 'a', 'p', 'o', 'l', 'a', 't', 'e', '_', '{', '0', '}', '.', 'p', 'y'] := by
  have key : ∀ (a a' b b' : Path), ' ' ∉ a → ' ' ∉ a' → a ++ ' ' :: b = a' ++ ' ' :: b' → a = a' := by
    intro a
    induction a with
    | nil =>
      intro a' b b' ha ha' he
      cases a' with
      | nil => rfl
      | cons c a' =>
        simp only [List.nil_append, List.cons_append, List.cons.injEq] at he
        exact absurd (by rw [← he.1]; simp) ha'
    | cons c a ih =>
      intro a' b b' ha ha' he
      cases a' with
      | nil =>
        simp only [List.nil_append, List.cons_append, List.cons.injEq] at he
        exact absurd (by rw [he.1]; simp) ha
      | cons c' a' =>
        simp only [List.cons_append, List.cons.injEq] at he
        obtain ⟨rfl, he⟩ := he
        rw [ih a' b b' (fun h => ha (by simp [h])) (fun h => ha' (by simp [h])) he]
  have hc : command stem = ['s', 'e', 't', ' ', '-', 'o', ' ', 'p', 'i', 'p', 'e', 'f', 'a', 'i', 'l', ';', ' ', 'p', 'y', 't', 'h', 'o', 'n', ' '] ++ ['E', 'x', 't', 'r', 'a', 'p', 'o', 'l', 'a', 't', 'e', '_', '{', '0', '}', '.', 'p', 'y'] ++ ' ' :: (['2', '>', '&', '1', ' ', '|', ' '] ++ (['t', 'e', 'e', ' ', 'E', 'x', 't', 'r', 'a', 'p', 'o', 'l', 'a', 't', 'e', '_'] ++ stem ++ ['.', 'l', 'o', 'g'])) := by
    simp [command]
  constructor
  · rintro ⟨after, h, hs⟩
    rw [hc, List.append_assoc, List.append_assoc] at h
    exact (key _ _ _ _ (by decide) hs (List.append_cancel_left h)).symm
  · rintro rfl
    exact ⟨_, hc, by decide⟩

theorem command_runs_script_iff (stem : Path) : RunsScript (command stem) (script stem) ↔ stem = ['{', '0', '}'] := by
  rw [command_runs, script]
  constructor
  · intro h
    have h' : ['E', 'x', 't', 'r', 'a', 'p', 'o', 'l', 'a', 't', 'e', '_'] ++ (stem ++ ['.', 'p', 'y']) = ['E', 'x', 't', 'r', 'a', 'p', 'o', 'l', 'a', 't', 'e', '_'] ++ (['{', '0', '}'] ++ ['.', 'p', 'y']) := by
      rw [← List.append_assoc, h]; decide
    exact List.append_cancel_right (List.append_cancel_left h')
  · rintro rfl
    decide

/-! ## Newer data -/

/-- The data or the metadata changed after the run finished: it is listed; if neither did, it is not. -/
theorem newer_spec (fs : FS) (topIn : Path) (runs : List Run) (r : Run) :
    r ∈ newer fs top topIn runs ↔ r ∈ runs ∧ ∃ tf tm td, fs.mtime (marker .finished top r.1 r.2) = some tf ∧
      fs.mtime (topIn ++ ['/'] ++ r.1 ++ ['/', 'm', 'e', 't', 'a', 'd', 'a', 't', 'a', '.', 't', 'x', 't']) = some tm ∧ fs.mtime (topIn ++ ['/'] ++ r.1 ++ ['/'] ++ r.2) = some td ∧ (tf < td ∨ tf < tm) := by
  rw [newer, foldl_filter (fun r => isNewer fs top topIn r = true)]
  simp only [List.nil_append, List.mem_filter, decide_eq_true_eq]
  refine and_congr_right fun _ => ?_
  unfold isNewer
  constructor
  · intro h
    split at h
    · rename_i tf tm td h1 h2 h3
      exact ⟨tf, tm, td, h1, h2, h3, by simpa using h⟩
    · simp at h
  · rintro ⟨tf, tm, td, h1, h2, h3, h4⟩
    rw [h1, h2, h3]
    simpa using h4

/-- Only runs that have finished are listed as having newer data. -/
theorem newer_finished (fs : FS) (topIn : Path) (runs : List Run) (r : Run) (h : r ∈ newer fs top topIn runs) : has top r fs .finished ∧ r ∈ runs := by
  obtain ⟨hr, tf, _, _, h1, _⟩ := (newer_spec fs topIn runs r).mp h
  exact ⟨by simp [has, h1], hr⟩

/-- Data that change while the extrapolation is running, after they have been read, are never listed: the time of `.finished` is that of the end of the run. -/
theorem newer_misses_change_during_run (top topIn : Path) (r : Run) (hd : ∀ k, marker k top r.1 r.2 ≠ topIn ++ ['/'] ++ r.1 ++ ['/'] ++ r.2)
    (hm : ∀ k, marker k top r.1 r.2 ≠ topIn ++ ['/'] ++ r.1 ++ ['/', 'm', 'e', 't', 'a', 'd', 'a', 't', 'a', '.', 't', 'x', 't']) (fs : FS)
    (_h : Reaches top r (fs, .returned 0) .running) (hmt : ∃ tm, fs.mtime (topIn ++ ['/'] ++ r.1 ++ ['/', 'm', 'e', 't', 'a', 'd', 'a', 't', 'a', '.', 't', 'x', 't']) = some tm ∧ tm ≤ fs.now) :
    ∃ fs', Step top r (fs, .returned 0) (fs.touch (topIn ++ ['/'] ++ r.1 ++ ['/'] ++ r.2), .returned 0) ∧
      Step top r (fs.touch (topIn ++ ['/'] ++ r.1 ++ ['/'] ++ r.2), .returned 0) (fs', .finishedWritten) ∧ ∀ runs, r ∉ newer fs' top topIn runs := by
  refine ⟨_, .other _ _ _ (fun k => by simp only [FS.touch, if_neg (hd k)]), .writeFinished _, fun runs => ?_⟩
  rw [newer_spec]
  rintro ⟨_, tf, tm, td, h1, h2, h3, h4⟩
  obtain ⟨tm', h5, h6⟩ := hmt
  have hd' := hd .finished
  have hm' := hm .finished
  simp only [FS.touch, if_true, Option.some.injEq] at h1
  simp only [FS.touch, if_neg hd'.symm, if_true, Option.some.injEq] at h3
  simp only [FS.touch, if_neg hm'.symm] at h2
  split at h2
  · simp at h2; omega
  · rw [h5] at h2
    simp at h2
    omega

/-- The hypotheses are met: a run of `Extrapolate_rh.py` that has been called for the first time. -/
example : ∃ fs, Reaches ['o', 'u', 't'] (['s', 'i', 'm'], ['r', 'h', '.', 'h', '5']) (fs, .inTry) .running ∧
    (['s', 'i', 'm'], ['r', 'h', '.', 'h', '5']) ∈ unfinished fs ['o', 'u', 't'] [(['s', 'i', 'm'], ['r', 'h', '.', 'h', '5'])] := by
  have h0 : Reaches ['o', 'u', 't'] (['s', 'i', 'm'], ['r', 'h', '.', 'h', '5']) (⟨fun _ => none, 0⟩, .over none) .never := .init _ (fun _ => rfl)
  have h5 := ((((h0.step _ _ _ (.again _ _)).step _ _ _ (.touch _)).step _ _ _ (.removeError _)).step _ _ _ (.removeFinished _)).step _ _ _ (.script _ _ (fun _ => rfl))
  exact ⟨_, h5, ((lists_right_partial _ _ _ h5 (by decide) _ (by simp)).2.1).mpr rfl⟩

end Verif.Props.Markers
