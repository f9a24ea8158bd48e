import Verif.Model.PairedXor
import Verif.Props.Xor
import Verif.Props.Fletcher

/-!
# C44: the corotating paired-XOR format
-/

namespace Verif.Props.PairedXor

open Verif.Xor Verif.PairedXor Verif.Spec.Xor Verif.Props.Xor
open Verif.Spec.Fletcher (Words)

variable {Q T : Type} [DecidableEq T] [Zero T]

/-- Arithmetic keeps the shapes of arrays; the logarithm of a rotor has three components. -/
structure Shapes (A : Arith Q T) : Prop where
  toPairs : ∀ a b m u, Rect m u → Rect m (A.toPairs a b u)
  truncate : ∀ tol m u, Rect m u → Rect m (A.truncate tol u)
  log : ∀ q, Rect 3 (A.log q)
  round : ∀ tol m u, Rect m u → Rect m (A.roundLog tol u)

theorem rect_mapWords {m : Nat} {u : List Row} (f : BitVec 64 → BitVec 64) (h : Rect m u) : Rect m (mapWords f u) := by
  intro r hr
  obtain ⟨r', hr', rfl⟩ := List.mem_map.mp hr
  simpa using h r' hr'

theorem size_rect {m : Nat} {u : List Row} (h : Rect m u) : size u = u.length * m := by
  unfold size
  induction u with
  | nil => simp
  | cons a u ih =>
    have h1 : a.length = m := h a (by simp)
    have h2 := ih (fun r hr => h r (by simp [hr]))
    simp only [List.flatten_cons, List.length_append, List.length_cons, h1, h2]
    ring

theorem type_name (dt : Int) (h0 : 0 ≤ dt) (h1 : dt < 11) :
    ∃ s, pyGet Verif.Weights.DataNames dt = .ok s ∧ s ∈ Verif.Weights.DataNames ∧ ((Verif.Weights.DataNames.idxOf s : Nat) : Int) = dt := by
  interval_cases dt
  · exact ⟨_, rfl, by simp [Verif.Weights.DataNames], by decide +kernel⟩
  · exact ⟨_, rfl, by simp [Verif.Weights.DataNames], by decide +kernel⟩
  · exact ⟨_, rfl, by simp [Verif.Weights.DataNames], by decide +kernel⟩
  · exact ⟨_, rfl, by simp [Verif.Weights.DataNames], by decide +kernel⟩
  · exact ⟨_, rfl, by simp [Verif.Weights.DataNames], by decide +kernel⟩
  · exact ⟨_, rfl, by simp [Verif.Weights.DataNames], by decide +kernel⟩
  · exact ⟨_, rfl, by simp [Verif.Weights.DataNames], by decide +kernel⟩
  · exact ⟨_, rfl, by simp [Verif.Weights.DataNames], by decide +kernel⟩
  · exact ⟨_, rfl, by simp [Verif.Weights.DataNames], by decide +kernel⟩
  · exact ⟨_, rfl, by simp [Verif.Weights.DataNames], by decide +kernel⟩
  · exact ⟨_, rfl, by simp [Verif.Weights.DataNames], by decide +kernel⟩

/-- What `load` makes of what `save` wrote, for any encoding. -/
theorem load_of_encode (A : Arith Q T) (w w' : Wave Q) (l : List Row) (tol : T) (lf : Option (List Row)) (n : Nat) (he : encode A w tol lf = .ok (w', l))
    (h0 : 0 ≤ w'.dataType) (h1 : w'.dataType < 11) (ht : Rect 1 w'.t) (hl : Rect 3 l) :
    ∃ f, save A w tol lf n = .ok f ∧ ∀ ignore, load A f ignore = .ok ⟨xorTimeseriesReverse w'.t, A.exp (xorTimeseriesReverse l),
      A.fromPairs w'.ellMin w'.ellMax (xorTimeseriesReverse w'.data), .corotating, w'.dataType, true, true, w'.ellMin, w'.ellMax⟩ := by
  obtain ⟨s, hs, hm, hi⟩ := type_name _ h0 h1
  refine ⟨⟨⟨"corotating_paired_xor", w'.t, w'.data, w'.ellMin, w'.ellMax, if size l > 1 then some l else none, n⟩,
        some ⟨"corotating_paired_xor", s, n, w'.t.length,
        [(.time, checksum w'.t), (.modes, checksum w'.data)] ++ ((if size l > 1 then some l else none).map fun l => (Dataset.logFrame, checksum l)).toList⟩⟩, ?_, ?_⟩
  · simp only [save, he, ok_bind, hs]
    rfl
  · intro ignore
    have ht' : size w'.t = w'.t.length := by rw [size_rect ht, mul_one]
    have hj : loadJson ignore (⟨⟨"corotating_paired_xor", w'.t, w'.data, w'.ellMin, w'.ellMax, if size l > 1 then some l else none, n⟩,
        some ⟨"corotating_paired_xor", s, n, w'.t.length,
        [(.time, checksum w'.t), (.modes, checksum w'.data)] ++ ((if size l > 1 then some l else none).map fun l => (Dataset.logFrame, checksum l)).toList⟩⟩) = .ok (some w'.dataType) := by
      simp [loadJson, hm, hi, ok_bind, pure_eq_ok]
    have hc : loadChecks ignore (⟨⟨"corotating_paired_xor", w'.t, w'.data, w'.ellMin, w'.ellMax, if size l > 1 then some l else none, n⟩,
        some ⟨"corotating_paired_xor", s, n, w'.t.length,
        [(.time, checksum w'.t), (.modes, checksum w'.data)] ++ ((if size l > 1 then some l else none).map fun l => (Dataset.logFrame, checksum l)).toList⟩⟩) = .ok () := by
      by_cases hl' : size l > 1 <;> simp [loadChecks, ht', ok_bind, checkSums, dataset, hl']
    have hx : xorTimeseriesReverse ((if size l > 1 then some l else none).getD []) = xorTimeseriesReverse l := by
      by_cases hl' : size l > 1
      · simp [hl']
      · have : l = [] := by
          rw [size_rect hl] at hl'
          exact List.length_eq_zero_iff.mp (by omega)
        rw [if_neg hl', this]
        rfl
    unfold load
    rw [hj, ok_bind, hc, ok_bind]
    simp only [hx, pure_eq_ok]

/-- C44: for every tolerance other than zero a waveform in the corotating frame can be saved, and loading it gives back, bit for bit, the times,
the rounded logarithm of the frame (or the `log_frame` that was passed) and the paired, truncated modes, converted from pairs (`-0.0` having been
replaced by `0.0`), together with the data type and the range of modes.

Missing: the tolerance zero (`zero_tolerance_corrupts`), waveforms in the inertial frame (`round_trip_inertial`), and the flags that say whether mass and radius are scaled out
(`flags_lost`). -/
theorem round_trip_partial (A : Arith Q T) (hA : Shapes A) (w : Wave Q) (m : Nat) (ht : Rect 1 w.t) (hd : Rect m w.data) (hf : w.frameType = .corotating)
    (h0 : 0 ≤ w.dataType) (h1 : w.dataType < 11) (tol : T) (htol : tol ≠ 0) (lf : Option (List Row)) (hlf : ∀ l, lf = some l → Rect 3 l) (n : Nat) :
    ∃ f, save A w tol lf n = .ok f ∧ ∀ ignore, load A f ignore = .ok
      ⟨mapWords A.plusZero w.t, A.exp (mapWords A.plusZero (lf.getD (A.roundLog tol (A.log w.frame)))),
        A.fromPairs w.ellMin w.ellMax (mapWords A.plusZero (A.truncate tol (A.toPairs w.ellMin w.ellMax w.data))),
        .corotating, w.dataType, true, true, w.ellMin, w.ellMax⟩ := by
  have hl : Rect 3 (lf.getD (A.roundLog tol (A.log w.frame))) := by
    cases lf with
    | none => exact hA.round _ _ _ (hA.log _)
    | some l => exact hlf l rfl
  have he : encode A w tol lf = .ok ({ w with t := xorTimeseries (mapWords A.plusZero w.t), data := xorTimeseries (mapWords A.plusZero (A.truncate tol (A.toPairs w.ellMin w.ellMax w.data))) },
      xorTimeseries (mapWords A.plusZero (lf.getD (A.roundLog tol (A.log w.frame))))) := by
    simp [encode, htol, corotating, hf, ok_bind, pure_eq_ok]
  obtain ⟨f, h2, h3⟩ := load_of_encode A w _ _ tol lf n he h0 h1 (rect_enc (rect_mapWords _ ht)) (rect_enc (rect_mapWords _ hl))
  refine ⟨f, h2, fun ignore => ?_⟩
  rw [h3 ignore, xor_reverse_xor 1 _ (rect_mapWords _ ht), xor_reverse_xor 3 _ (rect_mapWords _ hl),
    xor_reverse_xor m _ (rect_mapWords _ (hA.truncate _ _ _ (hA.toPairs _ _ _ _ hd)))]

/-- A waveform in the inertial frame is saved as what `to_corotating_frame` makes of it. -/
theorem round_trip_inertial (A : Arith Q T) (hA : Shapes A) (w v : Wave Q) (l : List Row) (hv : A.toCorotating w = .ok (v, l)) (m : Nat) (ht : Rect 1 v.t) (hd : Rect m v.data)
    (hf : w.frameType = .inertial) (hf' : v.frameType = .corotating)
    (h0 : 0 ≤ v.dataType) (h1 : v.dataType < 11) (tol : T) (htol : tol ≠ 0) (lf : Option (List Row)) (hl : Rect 3 l) (n : Nat) :
    ∃ f, save A w tol lf n = .ok f ∧ ∀ ignore, load A f ignore = .ok
      ⟨mapWords A.plusZero v.t, A.exp (mapWords A.plusZero l),
        A.fromPairs v.ellMin v.ellMax (mapWords A.plusZero (A.truncate tol (A.toPairs v.ellMin v.ellMax v.data))),
        .corotating, v.dataType, true, true, v.ellMin, v.ellMax⟩ := by
  have he : encode A w tol lf = .ok ({ v with t := xorTimeseries (mapWords A.plusZero v.t), data := xorTimeseries (mapWords A.plusZero (A.truncate tol (A.toPairs v.ellMin v.ellMax v.data))) },
      xorTimeseries (mapWords A.plusZero l)) := by
    simp [encode, htol, corotating, hf, hf', hv, ok_bind, pure_eq_ok]
  obtain ⟨f, h2, h3⟩ := load_of_encode A w _ _ tol lf n he h0 h1 (rect_enc (rect_mapWords _ ht)) (rect_enc (rect_mapWords _ hl))
  refine ⟨f, h2, fun ignore => ?_⟩
  rw [h3 ignore, xor_reverse_xor 1 _ (rect_mapWords _ ht), xor_reverse_xor 3 _ (rect_mapWords _ hl),
    xor_reverse_xor m _ (rect_mapWords _ (hA.truncate _ _ _ (hA.toPairs _ _ _ _ hd)))]

/-- Waveforms in other frames are refused. -/
theorem other_frames_refused (A : Arith Q T) (w : Wave Q) (tol : T) (htol : tol ≠ 0) (lf : Option (List Row)) (n : Nat) (h : w.frameType ≠ .inertial) (h' : w.frameType ≠ .corotating) :
    save A w tol lf n = .error .valueError := by
  simp [save, encode, htol, corotating, h, h', error_bind, ok_bind, pure_eq_ok]

/-! ## Validation -/

theorem checkSums_ok (h5 : H5) (c : List (Dataset × Nat)) (h : checkSums false h5 c = .ok ()) : ∀ p ∈ c, ∃ u, dataset h5 p.1 = .ok u ∧ p.2 = checksum u := by
  induction c with
  | nil => simp
  | cons p c ih =>
    obtain ⟨name, sum⟩ := p
    simp only [checkSums] at h
    rcases hd : dataset h5 name with e | u
    · rw [hd, error_bind] at h; simp at h
    · rw [hd, ok_bind] at h
      by_cases hs : sum = checksum u
      · simp only [hs, ne_eq, not_true_eq_false, if_false, ok_bind] at h
        intro p hp
        rcases List.mem_cons.mp hp with rfl | hp
        · exact ⟨u, hd, hs⟩
        · exact ih h p hp
      · simp [hs, invalid, error_bind] at h

/-- Unless told to ignore it, `load` returns a waveform only if there is a JSON file that agrees with the size of the H5 file, its number of times and all its checksums. -/
theorem load_validates (A : Arith Q T) (f : Files) (v : Wave Q) (h : load A f false = .ok v) :
    ∃ j, f.json = some j ∧ j.h5Size = f.h5.size ∧ j.nTimes = size f.h5.time ∧ ∀ p ∈ j.checksums, ∃ u, dataset f.h5 p.1 = .ok u ∧ p.2 = checksum u := by
  rcases hj : f.json with _ | j
  · simp [load, loadJson, hj, invalid, error_bind] at h
  · refine ⟨j, rfl, ?_⟩
    unfold load loadJson at h
    simp only [hj] at h
    by_cases h1 : j.dataType ∈ Verif.Weights.DataNames
    swap
    · simp [h1, error_bind] at h
    by_cases h2 : j.format = "corotating_paired_xor"
    swap
    · simp [h1, h2, invalid, error_bind, ok_bind] at h
    by_cases h3 : j.h5Size = f.h5.size
    swap
    · simp [h1, h2, h3, invalid, error_bind, ok_bind] at h
    refine ⟨h3, ?_⟩
    simp only [h1, h2, h3, ok_bind, pure_eq_ok, not_true_eq_false, if_false, ne_eq, loadChecks, hj, Option.map_some, Option.getD_some] at h
    by_cases h4 : f.h5.format = "corotating_paired_xor"
    swap
    · simp [h4, error_bind] at h
    by_cases h5 : j.nTimes = size f.h5.time
    swap
    · simp [h4, h5, invalid, error_bind, ok_bind] at h
    refine ⟨h5, ?_⟩
    simp only [h4, h5, ok_bind, not_true_eq_false, if_false] at h
    rcases hc : checkSums false f.h5 j.checksums with e | u
    · rw [hc, error_bind] at h; simp at h
    · exact checkSums_ok _ _ hc

theorem words16_words (u : List Row) : Words (words16 u) := by
  intro d hd
  simp only [words16, List.mem_flatMap, List.mem_cons, List.not_mem_nil, or_false] at hd
  obtain ⟨w, _, hw⟩ := hd
  have : w.toNat < 2 ^ 64 := w.isLt
  rcases hw with rfl | rfl | rfl | rfl <;> omega

/-- A change of one of the 16-bit words of the modes, whatever else it is, is noticed, unless it turns all bits of the word on or off. -/
theorem corruption_noticed (A : Arith Q T) (w : Wave Q) (tol : T) (lf : Option (List Row)) (n : Nat) (f : Files) (hs : save A w tol lf n = .ok f) (modes' : List Row)
    (x y : List Nat) (d e : Nat) (hd : words16 f.h5.modes = x ++ d :: y) (he : words16 modes' = x ++ e :: y) (hne : d ≠ e) (h1 : ¬ (d = 0 ∧ e = 65535)) (h2 : ¬ (d = 65535 ∧ e = 0)) (v : Wave Q) :
    load A { f with h5 := { f.h5 with modes := modes' } } false ≠ .ok v := by
  intro h
  obtain ⟨j, hj, -, -, hc⟩ := load_validates A _ v h
  have hmem : (Dataset.modes, checksum f.h5.modes) ∈ j.checksums := by
    simp only [save] at hs
    rcases hen : encode A w tol lf with e | ⟨w', l⟩
    · rw [hen, error_bind] at hs; simp at hs
    · rw [hen, ok_bind] at hs
      rcases hg : pyGet Verif.Weights.DataNames w'.dataType with e | s
      · simp only [hg, error_bind] at hs; simp at hs
      · simp only [hg, ok_bind, pure_eq_ok] at hs
        cases hs
        simp only [Option.some.injEq] at hj
        subst hj
        simp
  obtain ⟨u, hu, hsum⟩ := hc _ hmem
  simp only [dataset] at hu
  cases hu
  simp only [checksum] at hsum
  rw [hd, he, Verif.Props.Fletcher.fletcher32_single_word x y d e (hd ▸ words16_words _) (he ▸ words16_words _)] at hsum
  rcases hsum with h | h | h
  · exact hne h
  · exact h1 h
  · exact h2 h

/-- Without the JSON file the data cannot be read even if validation is to be ignored: the data type is not set. -/
theorem missing_json (A : Arith Q T) (f : Files) (hj : f.json = none) (hf : f.h5.format = "corotating_paired_xor") :
    load A f false = .error .valueError ∧ load A f true = .error .unboundLocal := by
  constructor
  · simp [load, loadJson, hj, invalid, error_bind]
  · by_cases h : 0 = size f.h5.time <;> simp [load, loadJson, loadChecks, hj, hf, invalid, ok_bind, pure_eq_ok, checkSums, h]

/-! ## What the code does not do -/

/-- With tolerance zero nothing is XORed or paired when saving, but both are undone when loading. -/
theorem zero_tolerance (A : Arith Q T) (hA : Shapes A) (w : Wave Q) (ht : Rect 1 w.t) (h0 : 0 ≤ w.dataType) (h1 : w.dataType < 11) (lf : Option (List Row)) (n : Nat) :
    ∃ f, save A w 0 lf n = .ok f ∧ f.h5.time = w.t ∧ f.h5.modes = w.data ∧ ∀ ignore, load A f ignore = .ok ⟨xorTimeseriesReverse w.t, A.exp (xorTimeseriesReverse (A.log w.frame)),
      A.fromPairs w.ellMin w.ellMax (xorTimeseriesReverse w.data), .corotating, w.dataType, true, true, w.ellMin, w.ellMax⟩ := by
  have he : encode A w 0 lf = .ok (w, A.log w.frame) := by simp [encode]
  obtain ⟨f, h2, h3⟩ := load_of_encode A w _ _ 0 lf n he h0 h1 ht (hA.log _)
  refine ⟨f, h2, ?_, ?_, h3⟩
  · simp only [save, he, ok_bind] at h2
    rcases hg : pyGet Verif.Weights.DataNames w.dataType with e | s
    · rw [hg, error_bind] at h2; simp at h2
    · rw [hg, ok_bind, pure_eq_ok] at h2; cases h2; rfl
  · simp only [save, he, ok_bind] at h2
    rcases hg : pyGet Verif.Weights.DataNames w.dataType with e | s
    · rw [hg, error_bind] at h2; simp at h2
    · rw [hg, ok_bind, pure_eq_ok] at h2; cases h2; rfl

/-- Whatever the arithmetic, every waveform with at least three times, the first two of which differ, comes back with other times. -/
theorem zero_tolerance_corrupts (A : Arith Q T) (hA : Shapes A) (w : Wave Q) (ht : Rect 1 w.t) (h0 : 0 ≤ w.dataType) (h1 : w.dataType < 11) (hn : 3 ≤ w.t.length) (hne : word w.t 0 0 ≠ word w.t 1 0)
    (lf : Option (List Row)) (n : Nat) : ∃ f v, save A w 0 lf n = .ok f ∧ load A f false = .ok v ∧ v.t ≠ w.t := by
  obtain ⟨f, h2, -, -, h3⟩ := zero_tolerance A hA w ht h0 h1 lf n
  refine ⟨f, _, h2, h3 false, fun he => ?_⟩
  simp only at he
  have key := (xor_timeseries_reverse_spec 1 w.t ht).2.2
  have k1 := key 1 0 (by omega)
  have k2 := key 2 0 (by omega)
  rw [he] at k1 k2
  have p1 : prefixXor w.t 0 1 = word w.t 0 0 ^^^ word w.t 1 0 := by simp [prefixXor]
  have p2 : prefixXor w.t 0 2 = word w.t 0 0 ^^^ word w.t 1 0 ^^^ word w.t 2 0 := by simp [prefixXor]
  rw [p1] at k1
  rw [p2] at k2
  rw [← k1] at k2
  have z0 : word w.t 0 0 = 0#64 := by
    have := congrArg (· ^^^ word w.t 1 0) k1
    simp [BitVec.xor_assoc] at this
    exact this.symm
  have z1 : word w.t 1 0 = 0#64 := by
    have := congrArg (· ^^^ word w.t 2 0) k2
    simp [BitVec.xor_assoc] at this
    exact this.symm
  exact hne (z0.trans z1.symm)

/-- With tolerance zero the frame is not checked: a waveform in the inertial frame is loaded as a corotating one. -/
theorem zero_tolerance_frame (A : Arith Q T) (hA : Shapes A) (w : Wave Q) (ht : Rect 1 w.t) (h0 : 0 ≤ w.dataType) (h1 : w.dataType < 11) (_hf : w.frameType = .inertial) (lf : Option (List Row)) (n : Nat) :
    ∃ f v, save A w 0 lf n = .ok f ∧ load A f false = .ok v ∧ v.frameType = .corotating := by
  obtain ⟨f, h2, -, -, h3⟩ := zero_tolerance A hA w ht h0 h1 lf n
  exact ⟨f, _, h2, h3 false, rfl⟩

/-- Everything that is loaded says that mass and radius are scaled out, whatever was saved. -/
theorem flags_lost (A : Arith Q T) (f : Files) (ignore : Bool) (v : Wave Q) (h : load A f ignore = .ok v) : v.mIsScaledOut = true ∧ v.rIsScaledOut = true := by
  unfold load at h
  rcases h1 : loadJson ignore f with e | d
  · rw [h1, error_bind] at h; simp at h
  · rcases h2 : loadChecks ignore f with e | u
    · rw [h1, ok_bind, h2, error_bind] at h; simp at h
    · rw [h1, ok_bind, h2, ok_bind] at h
      rcases d with _ | d
      · simp at h
      · simp only [pure_eq_ok] at h
        cases h
        exact ⟨rfl, rfl⟩

/-- The hypotheses are met. -/
def caseArith : Arith Unit Nat := ⟨fun _ _ u => u, fun _ _ u => u, fun _ u => u, id, fun q => q.map fun _ => [1, 2, 3], fun u => u.map fun _ => (), fun _ u => u, fun w => .ok (w, [])⟩
def caseWave : Wave Unit := ⟨[[5], [6], [7]], [(), (), ()], [[1, 2], [3, 4], [5, 6]], .corotating, 7, false, false, 2, 2⟩

theorem case_shapes : Shapes caseArith := ⟨fun _ _ _ _ h => h, fun _ _ _ h => h, fun q r hr => by
  obtain ⟨_, _, rfl⟩ := List.mem_map.mp hr
  rfl, fun _ _ _ h => h⟩

example : ∃ f v, save caseArith caseWave 3 none 100 = .ok f ∧ load caseArith f false = .ok v ∧ v.t = caseWave.t ∧ v.data = caseWave.data := by
  obtain ⟨f, h1, h2⟩ := round_trip_partial caseArith case_shapes caseWave 2 (by unfold Rect; decide) (by unfold Rect; decide) rfl (by decide) (by decide) 3 (by decide) none (by simp) 100
  exact ⟨f, _, h1, h2 false, rfl, rfl⟩

example : ∃ f v, save caseArith caseWave 0 none 100 = .ok f ∧ load caseArith f false = .ok v ∧ v.t ≠ caseWave.t :=
  zero_tolerance_corrupts caseArith case_shapes caseWave (by unfold Rect; decide) (by decide) (by decide) (by decide) (by decide) none 100

end Verif.Props.PairedXor
