import Verif.Spec.BmsFile
import Verif.Spec.Bms
import Verif.Props.TransformKwargs
import Verif.Props.Allclose
import Verif.Lemmas.BmsNull

/-!
# C70: BMS transformations are stored in and read from files without a change
-/

namespace Verif.Props.BmsFile

open Verif Verif.Modes Verif.TransformKwargs Verif.Bms Verif.BmsFile Verif.Spec.BmsFile Verif.Props.TransformKwargs Verif.Lemmas.Bms ComplexConjugate

/-! ## What the constructor makes -/

/-- Every object has a unit rotor, a velocity less than 1, the modes of a real function up to its `ell_max`, and an order in which all three parts are named. -/
structure Ready (b : Obj) : Prop where
  unit : Quaternion.normSq b.q = 1
  three : b.v.length = 3
  slow : (b.v.map (· ^ 2)).sum < 1
  ell : 1 ≤ b.ellMax
  size : (b.S.length : Int) = (b.ellMax + 1) ^ 2
  real : IsReal b.ellMax (toRow b.S)
  named : ∀ n ∈ normalOrder, n ∈ b.order

theorem complete_mem (order : Order) : ∀ n ∈ normalOrder, n ∈ complete normalOrder order := by
  intro n hn
  simp only [normalOrder, List.mem_cons, List.not_mem_nil, or_false] at hn
  simp only [complete, normalOrder, List.foldl_cons, List.foldl_nil]
  rcases hn with rfl | rfl | rfl <;> split <;> split <;> split <;> simp_all

theorem complete_id (order : Order) (h : ∀ n ∈ normalOrder, n ∈ order) : complete normalOrder order = order := by
  have h1 := h .supertranslation (by decide)
  have h2 := h .frame_rotation (by decide)
  have h3 := h .boost_velocity (by decide)
  simp [complete, normalOrder, h1, h2, h3]

/-- Every place of the array is that of a mode. -/
theorem place (i : Nat) : ∃ ell m : Int, 0 ≤ ell ∧ |m| ≤ ell ∧ lmIndex ell m 0 = i ∧ ell = Nat.sqrt i := by
  refine ⟨Nat.sqrt i, (i : Int) - (Nat.sqrt i : Int) ^ 2 - (Nat.sqrt i : Int), by positivity, ?_, ?_, rfl⟩
  · have h1 := Nat.sqrt_le' i
    have h2 := Nat.sqrt_le_add i
    rw [abs_le]
    zify at h1 h2
    constructor <;> nlinarith
  · unfold lmIndex
    ring

theorem construct_ok {ellMax : Int} {order : Order} {kw : Kw} {b : Obj} (h : construct ellMax order kw = .ok b) : ∃ r, process ellMax kw = .ok r ∧
    padTo ellMax ((r.ellMaxSuper + 1) ^ 2) r.supertranslation = .ok b.S ∧ b.q = r.frame_rotation ∧ b.v = r.boost_velocity ∧ b.order = complete normalOrder order ∧ b.ellMax = ellMax := by
  unfold construct at h
  rcases e1 : process ellMax kw with e | r
  · rw [e1] at h; cases h
  rw [e1, ok_bind] at h
  rcases e2 : padTo ellMax ((r.ellMaxSuper + 1) ^ 2) r.supertranslation with e | S
  · rw [e2] at h; cases h
  rw [e2, ok_bind] at h
  cases h
  exact ⟨r, rfl, e2, rfl, rfl, rfl, rfl⟩

theorem made_ready {b : Obj} (h : Made b) : Ready b := by
  obtain ⟨ellMax, order, kw, hpos, h⟩ := h
  obtain ⟨r, e1, e2, q, v, o, l⟩ := construct_ok h
  obtain ⟨⟨-, -, hq, -⟩, -, h3, hs, hw⟩ := process_rest _ _ _ e1
  obtain ⟨hreal, -⟩ := process_spec _ _ _ e1
  obtain ⟨row, s1, -, s3, -⟩ := process_ok e1
  have hse := (superInput_ok s1).1
  unfold padTo at e2
  split at e2
  · cases e2
  rename_i hsize
  have hS := Except.ok.inj e2
  have hge : r.ellMaxSuper ≤ ellMax := by
    by_contra hc
    have hc : ellMax < r.ellMaxSuper := not_le.mp hc
    exact hsize (by nlinarith)
  have hlen : (b.S.length : Int) = (ellMax + 1) ^ 2 := by
    rw [← hS]
    simp only [List.length_map, List.length_range]
    exact Int.toNat_of_nonneg (sq_nonneg _)
  have get : ∀ i : Nat, (i : Int) < (ellMax + 1) ^ 2 → toRow b.S i = if (i : Int) < (r.ellMaxSuper + 1) ^ 2 then r.supertranslation i else 0 := by
    intro i hi
    have hi' : i < ((ellMax + 1) ^ 2).toNat := by omega
    simp only [toRow, Int.natCast_nonneg, if_true, Int.toNat_natCast, ← hS]
    rw [List.getD_eq_getElem?_getD, List.getElem?_map, List.getElem?_range hi']
    rfl
  refine ⟨by rw [q]; exact hq, by rw [v]; exact h3, by rw [v]; exact hs, by omega, by rw [l]; exact hlen, ?_, by rw [o]; exact complete_mem _⟩
  rw [l]
  have wt : ∀ ell m, 0 ≤ ell → ell ≤ ellMax → |m| ≤ ell → weight (toRow b.S) ell m = if ell ≤ r.ellMaxSuper then weight r.supertranslation ell m else 0 := by
    intro ell m h0 hl hm
    have hm' := abs_le.mp hm
    have p0 : 0 ≤ lmIndex ell m 0 := by unfold lmIndex; nlinarith
    have p1 : lmIndex ell m 0 < (ellMax + 1) ^ 2 := by unfold lmIndex; nlinarith
    obtain ⟨i, hi⟩ : ∃ i : ℕ, lmIndex ell m 0 = i := ⟨_, (Int.toNat_of_nonneg p0).symm⟩
    unfold weight
    rw [hi, get i (by omega), ← hi]
    have : lmIndex ell m 0 < (r.ellMaxSuper + 1) ^ 2 ↔ ell ≤ r.ellMaxSuper := by
      unfold lmIndex
      constructor
      · intro h
        by_contra hc
        nlinarith
      · intro h
        nlinarith
    simp only [this]
  intro ell m h0 hl hm
  rw [wt ell m h0 hl hm, wt ell (-m) h0 hl (by rwa [abs_neg])]
  split
  · rename_i hc
    exact hreal ell m h0 hc hm
  · simp

/-- C70: an object that is constructed again from its own attributes is the same object. -/
theorem construct_again {b : Obj} (h : Ready b) : construct b.ellMax b.order { frame_rotation := some (components b.q), boost_velocity := some b.v, supertranslation := some b.S } = .ok b := by
  have hp : pad b.S = b.S := by
    have h1 := h.ell
    have h2 := h.size
    have : (4 : Int) ≤ b.S.length := by nlinarith
    unfold pad
    split
    · rename_i hc
      have : 4 - b.S.length = 0 := by omega
      rw [this]
      simp
    · rfl
  have he : ellMaxOf (pad b.S) = .ok b.ellMax := (ellMaxOf_spec _ _ (by linarith [h.ell])).mpr (by rw [hp]; exact h.size)
  have e1 : superInput { frame_rotation := some (components b.q), boost_velocity := some b.v, supertranslation := some b.S } = .ok (b.ellMax, imposeReality b.ellMax (toRow b.S)) := by
    unfold superInput
    simp only
    rw [he, ok_bind, hp]
    rfl
  have e2 : ∀ row, translations { frame_rotation := some (components b.q), boost_velocity := some b.v, supertranslation := some b.S } row = .ok row := fun row => rfl
  have e3 : workingEllMax { frame_rotation := some (components b.q), boost_velocity := some b.v, supertranslation := some b.S } b.ellMax b.ellMax = .ok (2 * b.ellMax + b.ellMax) := by
    unfold workingEllMax
    simp only [Option.getD_none]
    rw [if_neg (by have := h.ell; omega)]
  have e4 : rotor { frame_rotation := some (components b.q), boost_velocity := some b.v, supertranslation := some b.S } = .ok b.q := by
    unfold rotor
    have : mkQuaternion (components b.q) = .ok b.q := rfl
    simp only [Option.getD_some]
    rw [this, ok_bind, h.unit]
    rw [if_neg (by norm_num)]
    simp [pure_eq_ok]
  have e5 : velocity { frame_rotation := some (components b.q), boost_velocity := some b.v, supertranslation := some b.S } = .ok b.v := by
    unfold velocity
    simp only [Option.getD_some]
    rw [if_neg]
    rw [not_or, not_not, not_le]
    refine ⟨h.three, ?_⟩
    rw [Real.sqrt_lt' one_pos]
    simpa using h.slow
  have e6 : padTo b.ellMax ((b.ellMax + 1) ^ 2) (imposeReality b.ellMax (toRow b.S)) = .ok b.S := by
    unfold padTo
    rw [if_neg (by omega)]
    congr 1
    have hlen : ((b.ellMax + 1) ^ 2).toNat = b.S.length := by rw [← h.size]; simp
    refine List.ext_getElem (by simp [hlen]) fun i h1 h2 => ?_
    obtain ⟨ell, m, h0, hm, hi, hs⟩ := place i
    have hi2 : (i : Int) < (b.ellMax + 1) ^ 2 := by rw [← h.size]; exact_mod_cast h2
    have hl : ell ≤ b.ellMax := by
      by_contra hc
      have := abs_le.mp hm
      unfold lmIndex at hi
      have := h.ell
      nlinarith
    rw [List.getElem_map, List.getElem_range, if_pos hi2, ← hi]
    have := imposeReality_id b.ellMax (toRow b.S) h.real ell m h0 hl hm
    unfold weight at this
    rw [this, hi]
    simp [toRow, List.getD_eq_getElem?_getD, List.getElem?_eq_getElem h2]
  unfold construct process
  rw [e1]
  simp only [ok_bind, e2, e3, e4, e5, e6, pure_eq_ok, complete_id _ h.named]

/-- C70: a copy is equal to the object. -/
theorem copy_same (b : Obj) (h : Made b) : b.copy = .ok b := construct_again (made_ready h)

/-! ## Files -/

/-- The value of each dataset. -/
def valueOf (b : Obj) : String → Option Value := fun n =>
  if n = "ell_max" then some (.int b.ellMax) else if n = "order" then some (.names b.order) else if n = "boost_velocity" then some (.reals b.v)
  else if n = "frame_rotation" then some (.reals (components b.q)) else if n = "supertranslation" then some (.modes b.S) else none

/-- The file holds the transformations of the shelf, and nothing else under the names that are looked at. -/
def Holds (f : File) (s : Shelf) : Prop :=
  (∀ g, g ∉ reserved → f g = (s (some g)).map fun b => .group (valueOf b)) ∧
  (∀ n ∈ reserved, f n = (s none).bind fun b => (valueOf b n).map .data) ∧
  (∀ g ∈ reserved, s (some g) = none) ∧
  ∀ p b, s p = some b → Ready b

/-- The files hold what is in the store. -/
def Agrees (fs : Fs) (st : Store) : Prop := ∀ name, match fs name, st name with
  | none, none => True
  | some f, some s => Holds f s
  | _, _ => False

theorem create_free {α : Type} (wrap : Value → α) (d : Dir α) (b : Obj) (h : ∀ n ∈ reserved, d n = none) :
    create wrap d b.items = (fun n => if n ∈ reserved then (valueOf b n).map wrap else d n, .ok ()) := by
  have h1 := h "supertranslation" (by simp [reserved])
  have h2 := h "frame_rotation" (by simp [reserved])
  have h3 := h "boost_velocity" (by simp [reserved])
  have h4 := h "order" (by simp [reserved])
  have h5 := h "ell_max" (by simp [reserved])
  simp only [Obj.items, create, BmsFile.set, h1, h2, h3, h4, h5]
  simp
  funext n
  simp only [reserved, valueOf, List.mem_cons, List.not_mem_nil, or_false]
  by_cases a1 : n = "ell_max"
  · simp [a1, BmsFile.set]
  by_cases a2 : n = "order"
  · simp [a2, BmsFile.set]
  by_cases a3 : n = "boost_velocity"
  · simp [a3, BmsFile.set]
  by_cases a4 : n = "frame_rotation"
  · simp [a4, BmsFile.set]
  by_cases a5 : n = "supertranslation"
  · simp [a5, BmsFile.set]
  · simp [a1, a2, a3, a4, a5, BmsFile.set]

theorem valueOf_not_reserved (b : Obj) {n : String} (h : n ∉ reserved) : valueOf b n = none := by
  simp only [reserved, List.mem_cons, List.not_mem_nil, or_false, not_or] at h
  simp [valueOf, h]

theorem create_group (b : Obj) : create id (fun _ => none) b.items = (valueOf b, .ok ()) := by
  rw [create_free id _ b (fun _ _ => rfl)]
  congr 1
  funext n
  split
  · simp
  · rename_i h
    rw [valueOf_not_reserved b h]

theorem create_taken (f : File) (b : Obj) (x : Node) (h : f "supertranslation" = some x) : create .data f b.items = (f, .error .valueError) := by
  simp [Obj.items, create, h]

theorem holds_empty : Holds (fun _ => none) (fun _ => none) := ⟨fun _ _ => rfl, fun _ _ => rfl, fun _ _ => rfl, fun _ _ h => by cases h⟩

/-- Writing in an open file. -/
theorem writeIn_spec (f : File) (s : Shelf) (hf : Holds f s) (group : Option String) (hg : ∀ g, group = some g → g ∉ reserved) (b : Obj) (hb : Ready b) :
    match s group with
    | some _ => writeIn f group b = (f, .error .valueError)
    | none => ∃ f', writeIn f group b = (f', .ok ()) ∧ Holds f' (s.put group b) := by
  obtain ⟨h1, h2, h3, h4⟩ := hf
  rcases group with _ | g
  · rcases hs : s none with _ | c
    · simp only
      have free : ∀ n ∈ reserved, f n = none := fun n hn => by rw [h2 n hn, hs]; rfl
      refine ⟨_, show writeIn f none b = _ from create_free Node.data f b free, ?_, ?_, ?_, ?_⟩
      · intro g hg
        simp only [if_neg hg]
        rw [h1 g hg]
        simp [Shelf.put]
      · intro n hn
        simp [hn, Shelf.put]
      · intro g hg
        have := h3 g hg
        simp [Shelf.put, this]
      · intro p c hc
        unfold Shelf.put at hc
        split at hc
        · cases hc; exact hb
        · exact h4 p c hc
    · simp only
      have := h2 "supertranslation" (by simp [reserved])
      rw [hs] at this
      exact create_taken f b _ this
  · have hr := hg g rfl
    have hfg := h1 g hr
    rcases hs : s (some g) with _ | c
    · simp only
      rw [hs] at hfg
      simp only [writeIn, hfg, Option.map_none, create_group]
      refine ⟨_, rfl, ?_, ?_, ?_, ?_⟩
      · intro k hk
        by_cases hkg : k = g
        · simp [BmsFile.set, Shelf.put, hkg]
        · simp [BmsFile.set, Shelf.put, hkg, h1 k hk]
      · intro n hn
        have : n ≠ g := fun h => hr (h ▸ hn)
        simp [BmsFile.set, Shelf.put, this, h2 n hn]
      · intro k hk
        have : k ≠ g := fun h => hr (h ▸ hk)
        simp [Shelf.put, this, h3 k hk]
      · intro p c hc
        unfold Shelf.put at hc
        split at hc
        · cases hc; exact hb
        · exact h4 p c hc
    · simp only
      rw [hs] at hfg
      simp only [writeIn, hfg, Option.map_some]

theorem agrees_set {fs : Fs} {st : Store} (h : Agrees fs st) (name : String) (f : File) (s : Shelf) (hf : Holds f s) : Agrees (BmsFile.set fs name f) (st.put name s) := by
  intro n
  unfold BmsFile.set Store.put
  by_cases hn : n = name
  · simp [hn, hf]
  · simp only [if_neg hn]
    exact h n

theorem isOk_ok : Py.isOk (.ok () : Py Unit) = true := rfl
theorem isOk_error (e : PyErr) : Py.isOk (.error e : Py Unit) = false := rfl

/-- The body of a call on a file that is open for writing. -/
theorem write_step {fs : Fs} {st : Store} (h : Agrees fs st) (c : Call) (hc : Fair c) (f : File) (s : Shelf) (hf : Holds f s) (hsame : s c.group ≠ none → fs c.filename = some f ∧ st c.filename = some s) :
    let r : Fs × Py Unit := (BmsFile.set fs c.filename (writeIn f c.group c.b).1, (writeIn f c.group c.b).2)
    let t : Store × Bool := match s c.group with | some _ => (st, false) | none => (st.put c.filename (s.put c.group c.b), true)
    Agrees r.1 t.1 ∧ r.2.isOk = t.2 := by
  intro r t
  have := writeIn_spec f s hf c.group hc.2 c.b (made_ready hc.1)
  rcases hs : s c.group with _ | b
  · rw [hs] at this
    obtain ⟨f', e, hf'⟩ := this
    have hr : r = (BmsFile.set fs c.filename f', .ok ()) := by simp only [r, e]
    have ht : t = (st.put c.filename (s.put c.group c.b), true) := by simp only [t, hs]
    rw [hr, ht]
    exact ⟨agrees_set h _ _ _ hf', rfl⟩
  · rw [hs] at this
    have this : writeIn f c.group c.b = (f, .error .valueError) := this
    have hr : r = (BmsFile.set fs c.filename f, .error .valueError) := by simp only [r, this]
    have ht : t = (st, false) := by simp only [t, hs]
    rw [hr, ht]
    obtain ⟨k1, k2⟩ := hsame (by rw [hs]; simp)
    refine ⟨?_, rfl⟩
    have : BmsFile.set fs c.filename f = fs := by
      funext n
      unfold BmsFile.set
      split
      · rename_i hn; rw [hn, k1]
      · rfl
    simp only [this]
    exact h

/-- One call. -/
theorem toFile_step (fs : Fs) (st : Store) (h : Agrees fs st) (c : Call) (hc : Fair c) :
    Agrees (toFile fs c.filename c.mode c.group c.b).1 (step st c).1 ∧ (toFile fs c.filename c.mode c.group c.b).2.isOk = (step st c).2 := by
  have hn := h c.filename
  have key : ∀ f s, Holds f s → (s c.group ≠ none → fs c.filename = some f ∧ st c.filename = some s) → c.mode ≠ .r → openFile fs c.filename c.mode = .ok f →
      step st c = (match s c.group with | some _ => (st, false) | none => (st.put c.filename (s.put c.group c.b), true)) →
      Agrees (toFile fs c.filename c.mode c.group c.b).1 (step st c).1 ∧ (toFile fs c.filename c.mode c.group c.b).2.isOk = (step st c).2 := by
    intro f s hf hs hr ho hst
    have ht : toFile fs c.filename c.mode c.group c.b = (BmsFile.set fs c.filename (writeIn f c.group c.b).1, (writeIn f c.group c.b).2) := by
      simp only [toFile, ho, if_neg hr]
    rw [ht, hst]
    exact write_step h c hc f s hf hs
  have failed : ∀ e, toFile fs c.filename c.mode c.group c.b = (fs, .error e) → step st c = (st, false) →
      Agrees (toFile fs c.filename c.mode c.group c.b).1 (step st c).1 ∧ (toFile fs c.filename c.mode c.group c.b).2.isOk = (step st c).2 := by
    intro e h1 h2
    rw [h1, h2]
    exact ⟨h, rfl⟩
  rcases hm : c.mode with _ | _ | _ | _ | _
  · rw [hm] at key
    exact key (fun _ => none) (fun _ => none) holds_empty (fun h => absurd rfl h) (by decide) rfl (by simp only [step, hm])
  · rw [hm] at key failed
    rcases hf : fs c.filename with _ | f
    · rcases hs : st c.filename with _ | s
      · exact key (fun _ => none) (fun _ => none) holds_empty (fun h => absurd rfl h) (by decide) (by simp [openFile, hf]) (by simp only [step, hm, hs])
      · rw [hf, hs] at hn; exact hn.elim
    · rcases hs : st c.filename with _ | s
      · rw [hf, hs] at hn; exact hn.elim
      · exact failed .other (by simp [toFile, openFile, hf]) (by simp only [step, hm, hs])
  · rw [hm] at key failed
    rcases hf : fs c.filename with _ | f
    · rcases hs : st c.filename with _ | s
      · exact key (fun _ => none) (fun _ => none) holds_empty (fun h => absurd rfl h) (by decide) (by simp [openFile, hf]) (by simp only [step, hm, hs, Option.getD_none])
      · rw [hf, hs] at hn; exact hn.elim
    · rcases hs : st c.filename with _ | s
      · rw [hf, hs] at hn; exact hn.elim
      · rw [hf, hs] at hn
        exact key f s hn (fun _ => ⟨hf, hs⟩) (by decide) (by simp [openFile, hf]) (by simp only [step, hm, hs, Option.getD_some]; rcases s c.group with _ | _ <;> rfl)
  · rw [hm] at key failed
    rcases hf : fs c.filename with _ | f
    · rcases hs : st c.filename with _ | s
      · exact failed .other (by simp [toFile, openFile, hf]) (by simp only [step, hm, hs])
      · rw [hf, hs] at hn; exact hn.elim
    · rcases hs : st c.filename with _ | s
      · rw [hf, hs] at hn; exact hn.elim
      · rw [hf, hs] at hn
        exact key f s hn (fun _ => ⟨hf, hs⟩) (by decide) (by simp [openFile, hf]) (by simp only [step, hm, hs]; rcases s c.group with _ | _ <;> rfl)
  · rw [hm] at failed
    rcases hf : fs c.filename with _ | f
    · exact failed .other (by simp [toFile, openFile, hf]) (by simp only [step, hm])
    · exact failed .valueError (by simp [toFile, openFile, hf]) (by simp only [step, hm])

/-- A sequence of calls of `to_file`; the caller carries on after an exception. -/
def toFiles (fs : Fs) : List Call → Fs × List Bool
  | [] => (fs, [])
  | c :: rest =>
    let r := toFile fs c.filename c.mode c.group c.b
    let t := toFiles r.1 rest
    (t.1, r.2.isOk :: t.2)

theorem toFiles_agrees (L : List Call) : ∀ (fs : Fs) (st : Store), Agrees fs st → (∀ c ∈ L, Fair c) → Agrees (toFiles fs L).1 (run st L).1 ∧ (toFiles fs L).2 = (run st L).2 := by
  induction L with
  | nil => exact fun fs st h _ => ⟨h, rfl⟩
  | cons c L ih =>
    intro fs st h hL
    obtain ⟨a1, a2⟩ := toFile_step fs st h c (hL c (by simp))
    obtain ⟨b1, b2⟩ := ih _ _ a1 (fun d hd => hL d (by simp [hd]))
    exact ⟨b1, by simp only [toFiles, run, a2, b2]⟩

theorem readObj_spec (fs : Fs) (st : Store) (h : Agrees fs st) (filename : String) (group : Option String) (hg : ∀ g, group = some g → g ∉ reserved) :
    match (st filename).bind (· group) with
    | some b => readObj fs filename group = .ok b
    | none => ∃ e, readObj fs filename group = .error e := by
  have hn := h filename
  rcases hf : fs filename with _ | f <;> rcases hs : st filename with _ | s
  · simp only [Option.bind_none]
    exact ⟨.other, by simp [readObj, openFile, hf]; rfl⟩
  · rw [hf, hs] at hn; exact hn.elim
  · rw [hf, hs] at hn; exact hn.elim
  rw [hf, hs] at hn
  obtain ⟨h1, h2, h3, h4⟩ := hn
  simp only [Option.bind_some]
  have ho : openFile fs filename .r = .ok f := by simp [openFile, hf]
  have fin : ∀ (d : Dir Node) (b : Obj), directory f group = .ok d → (∀ n ∈ reserved, d n = (valueOf b n).map .data) → Ready b → readObj fs filename group = .ok b := by
    intro d b hd hv hb
    have v1 := hv "order" (by simp [reserved])
    have v2 := hv "ell_max" (by simp [reserved])
    have v3 := hv "supertranslation" (by simp [reserved])
    have v4 := hv "frame_rotation" (by simp [reserved])
    have v5 := hv "boost_velocity" (by simp [reserved])
    have w1 : readNames d "order" = .ok b.order := by simp [readNames, v1, valueOf]
    have w2 : readInt d "ell_max" = .ok b.ellMax := by simp [readInt, v2, valueOf]
    have w3 : readModes d "supertranslation" = .ok b.S := by simp [readModes, v3, valueOf]
    have w4 : readReals d "frame_rotation" = .ok (components b.q) := by simp [readReals, v4, valueOf]
    have w5 : readReals d "boost_velocity" = .ok b.v := by simp [readReals, v5, valueOf]
    unfold readObj
    rw [ho, ok_bind, hd, ok_bind, w1, ok_bind, w2, ok_bind, w3, ok_bind, w4, ok_bind, w5, ok_bind]
    exact construct_again hb
  rcases group with _ | g
  · rcases hb : s none with _ | b
    · simp only
      have := h2 "order" (by simp [reserved])
      rw [hb] at this
      have w1 : readNames f "order" = .error .typeError := by simp [readNames, this]
      refine ⟨.typeError, ?_⟩
      unfold readObj
      rw [ho, ok_bind, show directory f none = .ok f from rfl, ok_bind, w1]
      rfl
    · exact fin f b rfl (fun n hn => by rw [h2 n hn, hb]; rfl) (h4 _ _ hb)
  · have hr := h1 g (hg g rfl)
    rcases hb : s (some g) with _ | b
    · simp only
      rw [hb] at hr
      refine ⟨.keyError, ?_⟩
      unfold readObj
      rw [ho, ok_bind]
      simp only [directory, hr, Option.map_none]
      rfl
    · rw [hb] at hr
      exact fin (fun n => (valueOf b n).map .data) b (by simp [directory, hr]) (fun _ _ => rfl) (h4 _ _ hb)

/-- C70: after any sequence of calls of `to_file`, with any modes, files and groups, some of which may fail, each call of `from_file` gives exactly the transformation that is to be expected at
that place, whatever the object was before; and it raises and leaves the object as it was if there is none.  The calls that fail are those that are to be expected. -/
theorem store_refines (L : List Call) (hL : ∀ c ∈ L, Fair c) (self : Obj) (filename : String) (group : Option String) (hg : ∀ g, group = some g → g ∉ reserved) :
    (toFiles (fun _ => none) L).2 = (run (fun _ => none) L).2 ∧
    match ((run (fun _ => none) L).1 filename).bind (· group) with
    | some b => fromFile (toFiles (fun _ => none) L).1 self filename group = (b, .ok ())
    | none => ∃ e, fromFile (toFiles (fun _ => none) L).1 self filename group = (self, .error e) := by
  obtain ⟨a, b⟩ := toFiles_agrees L (fun _ => none) (fun _ => none) (fun _ => trivial) hL
  refine ⟨b, ?_⟩
  have := readObj_spec _ _ a filename group hg
  rcases hb : ((run (fun _ => none) L).1 filename).bind (· group) with _ | b
  · rw [hb] at this
    obtain ⟨e, he⟩ := this
    exact ⟨e, by simp only [fromFile, he]⟩
  · rw [hb] at this
    have this : readObj (toFiles (fun _ => none) L).1 filename group = .ok b := this
    simp only [fromFile, this]

/-- C70: what is written with the default arguments is read back, whatever was in the file before. -/
theorem round_trip (fs : Fs) (filename : String) (b self : Obj) (hb : Made b) :
    (toFile fs filename .w none b).2 = .ok () ∧ fromFile (toFile fs filename .w none b).1 self filename none = (b, .ok ()) := by
  have hc := create_free Node.data (fun _ => none) b (fun _ _ => rfl)
  have ht : toFile fs filename .w none b = (BmsFile.set fs filename (fun n => if n ∈ reserved then (valueOf b n).map Node.data else none), .ok ()) := by
    simp only [toFile, openFile, writeIn, hc]
    rfl
  rw [ht]
  refine ⟨rfl, ?_⟩
  have := readObj_spec (BmsFile.set (fun _ => none) filename (fun n => if n ∈ reserved then (valueOf b n).map Node.data else none)) (Store.put (fun _ => none) filename (Shelf.put (fun _ => none) none b))
    (agrees_set (fun _ => trivial) filename _ _ (by
      refine ⟨fun g hg => by simp [hg, Shelf.put], fun n hn => by simp [hn, Shelf.put], fun g _ => by simp [Shelf.put], fun p c hc => ?_⟩
      unfold Shelf.put at hc
      split at hc
      · cases hc; exact made_ready hb
      · cases hc)) filename none (fun g h => by cases h)
  simp only [Store.put, Shelf.put, if_true, Option.bind_some] at this
  have e : readObj (BmsFile.set fs filename (fun n => if n ∈ reserved then (valueOf b n).map Node.data else none)) filename none = .ok b := by
    rw [← this]
    simp only [readObj, openFile, BmsFile.set, if_true]
  simp only [fromFile, e]

/-! ## Names that are taken -/

/-- The claim without the condition on the names of groups does not hold: after a transformation is stored in a group "order", storing another in the root of the same file raises, but
the file is changed nevertheless: three of the five datasets are written. -/
theorem reserved_group_half_written (b c : Obj) (filename : String) :
    let fs := (toFile (fun _ => none) filename .a (some "order") b).1
    let r := toFile fs filename .a none c
    (toFile (fun _ => none) filename .a (some "order") b).2 = .ok () ∧ r.2 = .error .valueError ∧
    (∃ f, fs filename = some f ∧ f "boost_velocity" = none) ∧ ∃ f, r.1 filename = some f ∧ f "boost_velocity" = some (.data (.reals c.v)) ∧ f "ell_max" = none := by
  have h1 : toFile (fun _ => none) filename .a (some "order") b = (BmsFile.set (fun _ => none) filename (BmsFile.set (fun _ => none) "order" (.group (valueOf b))), .ok ()) := by
    simp only [toFile, openFile, writeIn, create_group, Option.getD_none]
    rfl
  have h2 : toFile (BmsFile.set (fun _ => none) filename (BmsFile.set (fun _ => none) "order" (.group (valueOf b)))) filename .a none c =
      (BmsFile.set (BmsFile.set (fun _ => none) filename (BmsFile.set (fun _ => none) "order" (.group (valueOf b)))) filename
        (BmsFile.set (BmsFile.set (BmsFile.set (BmsFile.set (fun _ => none) "order" (.group (valueOf b))) "supertranslation" (.data (.modes c.S))) "frame_rotation" (.data (.reals (components c.q))))
          "boost_velocity" (.data (.reals c.v))), .error .valueError) := by
    simp [toFile, openFile, writeIn, create, BmsFile.set, Obj.items]
  intro fs r
  simp only [fs, r, h1, h2]
  refine ⟨trivial, trivial, ⟨_, if_pos rfl, by simp [BmsFile.set]⟩, ⟨_, if_pos rfl, by simp [BmsFile.set], by simp [BmsFile.set]⟩⟩

/-! ## `is_close_to` -/

/-- Two numbers are close, as documented for numpy. -/
def Near (a b : ℂ) : Prop := ‖a - b‖ ≤ 1e-8 + 1e-5 * ‖b‖

open Classical in
theorem allclose_spec (a b : List ℂ) (h : a.length = b.length) : ∃ r, allclose a b = .ok r ∧ (r = true ↔ ∀ (i : Nat) (h1 : i < a.length) (h2 : i < b.length), Near a[i] b[i]) := by
  unfold allclose Allclose.npAllclose
  have hs : Allclose.broadcastShape (arr a).shape (arr b).shape = some [a.length] := by simp [arr, h, Allclose.broadcastShape]
  rw [hs]
  refine ⟨_, rfl, ?_⟩
  rw [decide_eq_true_iff]
  have pr : ∀ i, i < a.length → Allclose.project [a.length] [i] = [i] := by
    intro i hi
    simp only [Allclose.project]
    split
    · have : i = 0 := by omega
      rw [this]
    · rfl
  constructor
  · intro hall i h1 h2
    have := hall [i] (by simp [h1])
    simp only [arr, ← h, pr i h1] at this
    simpa [Allclose.close, List.getElem?_eq_getElem h1, List.getElem?_eq_getElem h2, Near] using this
  · intro hall idx hidx
    cases hidx with
    | cons h1 h2 =>
      cases h2
      rename_i i
      have := hall i h1 (by omega)
      simp only [arr, ← h, pr i h1]
      simpa [Allclose.close, List.getElem?_eq_getElem h1, List.getElem?_eq_getElem (show i < b.length by omega), Near] using this

theorem allclose_sizes (a b : List ℂ) (h : a.length ≠ b.length) (h1 : a.length ≠ 1) (h2 : b.length ≠ 1) : allclose a b = .error .valueError := by
  unfold allclose Allclose.npAllclose
  have hs : Allclose.broadcastShape (arr a).shape (arr b).shape = none := by simp [arr, h, h1, h2, Allclose.broadcastShape]
  rw [hs]

/-- All numbers of two lists of the same length are close. -/
def AllNear (a b : List ℂ) : Prop := a.length = b.length ∧ ∀ (i : Nat) (h1 : i < a.length) (h2 : i < b.length), Near a[i] b[i]

/-- C70: for transformations with the same `ell_max`, `is_close_to` is true exactly if the components of the rotors, of the velocities and the modes are close. -/
theorem is_close_to_spec (a b : Obj) (ha : Made a) (hb : Made b) (h : a.ellMax = b.ellMax) :
    ∃ r, a.isCloseTo b = .ok r ∧ (r = true ↔ AllNear ((components a.q).map (↑)) ((components b.q).map (↑)) ∧ AllNear (a.v.map (↑)) (b.v.map (↑)) ∧ AllNear a.S b.S) := by
  have ra := made_ready ha
  have rb := made_ready hb
  have l1 : ((components a.q).map (fun x : ℝ => (x : ℂ))).length = ((components b.q).map (fun x : ℝ => (x : ℂ))).length := by simp [components]
  have l2 : (a.v.map (fun x : ℝ => (x : ℂ))).length = (b.v.map (fun x : ℝ => (x : ℂ))).length := by simp [ra.three, rb.three]
  have l3 : a.S.length = b.S.length := by
    have := ra.size
    have h2 := rb.size
    rw [h] at this
    omega
  obtain ⟨r1, e1, s1⟩ := allclose_spec _ _ l1
  obtain ⟨r2, e2, s2⟩ := allclose_spec _ _ l2
  obtain ⟨r3, e3, s3⟩ := allclose_spec _ _ l3
  refine ⟨r1 && r2 && r3, ?_, ?_⟩
  · unfold Obj.isCloseTo
    rw [e1, ok_bind, e2, ok_bind, e3, ok_bind]
    rfl
  · rw [Bool.and_eq_true, Bool.and_eq_true, s1, s2, s3, and_assoc]
    simp only [AllNear, l1, l2, l3, true_and]

/-- C70: every transformation is close to itself. -/
theorem is_close_to_self (a : Obj) (ha : Made a) : a.isCloseTo a = .ok true := by
  obtain ⟨r, e, s⟩ := is_close_to_spec a a ha ha rfl
  rw [e, s.mpr]
  have : ∀ l : List ℂ, AllNear l l := by
    intro l
    refine ⟨rfl, fun i _ _ => ?_⟩
    unfold Near
    rw [sub_self, norm_zero]
    positivity
  exact ⟨this _, this _, this _⟩

/-- The question whether two transformations with different `ell_max` are close has no answer: it raises, although the arrays differ in nothing but zeros. -/
theorem different_ell_max_raises (a b : Obj) (ha : Made a) (hb : Made b) (h : a.ellMax ≠ b.ellMax) : a.isCloseTo b = .error .valueError := by
  have ra := made_ready ha
  have rb := made_ready hb
  have l1 : ((components a.q).map (fun x : ℝ => (x : ℂ))).length = ((components b.q).map (fun x : ℝ => (x : ℂ))).length := by simp [components]
  have l2 : (a.v.map (fun x : ℝ => (x : ℂ))).length = (b.v.map (fun x : ℝ => (x : ℂ))).length := by simp [ra.three, rb.three]
  obtain ⟨r1, e1, -⟩ := allclose_spec _ _ l1
  obtain ⟨r2, e2, -⟩ := allclose_spec _ _ l2
  have h1 := ra.ell
  have h2 := rb.ell
  have e3 : allclose a.S b.S = .error .valueError := by
    refine allclose_sizes _ _ ?_ ?_ ?_
    · intro hc
      have := ra.size
      have h3 := rb.size
      rw [hc, h3] at this
      exact h (by nlinarith [sq_nonneg (a.ellMax - b.ellMax)])
    · intro hc
      have := ra.size
      rw [hc] at this
      push_cast at this
      nlinarith
    · intro hc
      have := rb.size
      rw [hc] at this
      push_cast at this
      nlinarith
  unfold Obj.isCloseTo
  rw [e1, ok_bind, e2, ok_bind, e3]
  rfl

/-- Objects can have any such attributes. -/
theorem ready_made {b : Obj} (h : Ready b) : Made b := ⟨b.ellMax, b.order, _, by linarith [h.ell], construct_again h⟩

/-- An object with `ell_max` 1: a time translation, a rotation about the `x` axis and a boost along the `z` axis. -/
noncomputable def sample (t : ℝ) (w x : ℝ) (order : Order) : Obj where
  q := ⟨w, x, 0, 0⟩
  v := [0, 0, 1 / 2]
  S := [(t : ℂ), 0, 0, 0]
  order := order
  ellMax := 1

theorem sample_made (t w x : ℝ) (h : w ^ 2 + x ^ 2 = 1) (order : Order) (ho : ∀ n ∈ normalOrder, n ∈ order) : Made (sample t w x order) := by
  refine ready_made ⟨?_, rfl, ?_, le_refl _, rfl, ?_, ho⟩
  · rw [normSq_components]
    simp [sample]
    linarith
  · simp [sample]
    norm_num
  · intro ell m h0 hl hm
    have hl : ell ≤ 1 := hl
    have hm' := abs_le.mp hm
    have : (ell = 0 ∧ m = 0) ∨ (ell = 1 ∧ (m = -1 ∨ m = 0 ∨ m = 1)) := by omega
    rcases this with ⟨rfl, rfl⟩ | ⟨rfl, rfl | rfl | rfl⟩ <;> simp [weight, toRow, sample, lmIndex]

/-- The hypotheses of the theorems above can be met. -/
example : Made (sample 3 (3 / 5) (4 / 5) [.boost_velocity, .supertranslation, .frame_rotation]) := sample_made _ _ _ (by norm_num) _ (by decide)

/-- Three transformations in one file, and one that is refused. -/
example (a b c : Obj) : (run (fun _ => none) [⟨"f", .w, none, a⟩, ⟨"f", .a, some "g", b⟩, ⟨"f", .a, some "g", c⟩, ⟨"f", .rPlus, some "h", c⟩]).2 = [true, true, false, true] := by
  simp [run, step, Store.put, Shelf.put]

/-- The velocity of an object as a vector. -/
def velocity3 (b : Obj) : Fin 3 → ℝ := fun i => b.v.getD i 0

theorem near_self (l : List ℂ) : AllNear l l := by
  refine ⟨rfl, fun i _ _ => ?_⟩
  unfold Near
  rw [sub_self, norm_zero]
  positivity

open Spec.Bms in
theorem boost_rest (v : Vec) : boost v (1, 0) = (gam v, gam v • v) := by
  simp [boost, dot]

open Spec.Bms in
theorem swapped (q : Quaternion ℝ) (v : Vec) (h0 : q.re = 3 / 5) (h1 : q.imI = 4 / 5) (h2 : q.imJ = 0) (h3 : q.imK = 0) (v0 : v 0 = 0) (v1 : v 1 = 0) (v2 : v 2 = 1 / 2) :
    lorentz normalOrder q v (1, 0) ≠ lorentz [.supertranslation, .boost_velocity, .frame_rotation] q v (1, 0) := by
  have e1 : lorentz normalOrder q v (1, 0) = boost v (rot q (1, 0)) := rfl
  have e2 : lorentz [.supertranslation, .boost_velocity, .frame_rotation] q v (1, 0) = rot q (boost v (1, 0)) := rfl
  have e3 : rot q (1, 0) = (1, 0) := by
    unfold rot
    refine Prod.ext rfl ?_
    funext i
    fin_cases i
    · simpa using rotateVec_0 q 0
    · simpa using rotateVec_1 q 0
    · simpa using rotateVec_2 q 0
  have hg : 0 < gam v := by
    unfold gam dot
    rw [Fin.sum_univ_three, v0, v1, v2]
    exact div_pos one_pos (Real.sqrt_pos.mpr (by norm_num))
  intro h
  rw [e1, e2, e3, boost_rest] at h
  have := congrFun (congrArg Prod.snd h) 1
  simp only [rot] at this
  rw [rotateVec_1] at this
  simp only [Pi.smul_apply, smul_eq_mul, h0, h1, h2, h3, v0, v1, v2] at this
  norm_num at this
  exact hg.ne' this

/-- `is_close_to` does not look at the order: there are transformations that it takes to be the same although their Lorentz transformations differ. -/
theorem order_is_ignored : ∃ a b : Obj, Made a ∧ Made b ∧ a.isCloseTo b = .ok true ∧ ∃ X, Spec.Bms.lorentz a.order a.q (velocity3 a) X ≠ Spec.Bms.lorentz b.order b.q (velocity3 b) X := by
  have ha := sample_made 0 (3 / 5) (4 / 5) (by norm_num) normalOrder (by decide)
  have hb := sample_made 0 (3 / 5) (4 / 5) (by norm_num) [.supertranslation, .boost_velocity, .frame_rotation] (by decide)
  refine ⟨_, _, ha, hb, ?_, (1, 0), ?_⟩
  · obtain ⟨r, e, s⟩ := is_close_to_spec _ _ ha hb rfl
    rw [e, s.mpr ⟨near_self _, near_self _, near_self _⟩]
  · exact swapped _ _ rfl rfl rfl rfl (by simp [velocity3, sample]) (by simp [velocity3, sample]) (by simp [velocity3, sample])

/-- Rotors that differ by a sign describe the same rotation, but are not close. -/
theorem sign_of_rotor : ∃ a b : Obj, Made a ∧ Made b ∧ a.isCloseTo b = .ok false ∧ a.S = b.S ∧ a.order = b.order ∧ a.ellMax = b.ellMax ∧ a.v = b.v ∧
    ∀ X, Spec.Bms.lorentz a.order a.q (velocity3 a) X = Spec.Bms.lorentz b.order b.q (velocity3 b) X := by
  have ha := sample_made 0 (3 / 5) (4 / 5) (by norm_num) normalOrder (by decide)
  have hb := sample_made 0 (-(3 / 5)) (-(4 / 5)) (by norm_num) normalOrder (by decide)
  refine ⟨_, _, ha, hb, ?_, rfl, rfl, rfl, rfl, ?_⟩
  · obtain ⟨r, e, s⟩ := is_close_to_spec _ _ ha hb rfl
    rw [e]
    rcases r with _ | _
    · rfl
    · exfalso
      have := (s.mp rfl).1.2 0 (by simp [components]) (by simp [components])
      simp only [components, sample, List.map_cons, List.getElem_cons_zero, Near] at this
      rw [← Complex.ofReal_sub, Complex.norm_real, Complex.norm_real] at this
      norm_num at this
  · intro X
    have : (sample 0 (3 / 5) (4 / 5) normalOrder).q = -(sample 0 (-(3 / 5)) (-(4 / 5)) normalOrder).q := by
      refine QuaternionAlgebra.ext ?_ ?_ ?_ ?_
      · show (3 / 5 : ℝ) = - -(3 / 5); norm_num
      · show (4 / 5 : ℝ) = - -(4 / 5); norm_num
      · show (0 : ℝ) = -0; norm_num
      · show (0 : ℝ) = -0; norm_num
    rw [this]
    have key : ∀ (q : Quaternion ℝ) (v : Spec.Bms.Vec), Spec.Bms.lorentz normalOrder (-q) v X = Spec.Bms.lorentz normalOrder q v X := fun q v => congrArg (Spec.Bms.boost v) (rot_neg q X)
    exact key _ _

/-- `is_close_to` is not symmetric. -/
theorem not_symmetric : ∃ a b : Obj, Made a ∧ Made b ∧ a.isCloseTo b = .ok true ∧ b.isCloseTo a = .ok false := by
  have ha := sample_made 0 1 0 (by norm_num) normalOrder (by decide)
  have hb := sample_made (1e-8 / (1 - 1e-5)) 1 0 (by norm_num) normalOrder (by decide)
  refine ⟨_, _, ha, hb, ?_, ?_⟩
  · obtain ⟨r, e, s⟩ := is_close_to_spec _ _ ha hb rfl
    rw [e, s.mpr ⟨near_self _, near_self _, rfl, ?_⟩]
    intro i h1 h2
    have h1 : i < 4 := h1
    have : i = 0 ∨ i = 1 ∨ i = 2 ∨ i = 3 := by omega
    rcases this with rfl | rfl | rfl | rfl
    · simp only [sample, List.getElem_cons_zero, Near]
      rw [← Complex.ofReal_sub, Complex.norm_real, Complex.norm_real]
      norm_num
    all_goals
      simp [sample, Near]
      norm_num
  · obtain ⟨r, e, s⟩ := is_close_to_spec _ _ hb ha rfl
    rw [e]
    rcases r with _ | _
    · rfl
    · exfalso
      have := (s.mp rfl).2.2.2 0 (by simp [sample]) (by simp [sample])
      simp only [sample, List.getElem_cons_zero, Near] at this
      rw [← Complex.ofReal_sub, Complex.norm_real, Complex.norm_real] at this
      norm_num at this

end Verif.Props.BmsFile
