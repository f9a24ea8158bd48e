import Verif.Spec.SpecFile
import Verif.Lemmas.SpecFile

/-!
# C74: waveforms written by `write_to_h5` and read by `read_from_h5`
-/

namespace Verif.Props.SpecFile

open Verif Verif.SpecFile Verif.Spec.SpecFile Verif.Modes

theorem lookup_skip (l r : List (String × AttrVal)) (k : String) (h : ∀ p ∈ l, p.1 ≠ k) : (l ++ r).lookup k = r.lookup k := by
  induction l with
  | nil => rfl
  | cons p l ih =>
    rw [List.cons_append, List.lookup_cons]
    have h1 : (k == p.1) = false := by
      have := h p (by simp)
      simp [Ne.symm this]
    rw [h1]
    exact ih fun q hq => h q (by simp [hq])

theorem lookup_other (l r : List (String × AttrVal)) (k : String) (h : ∀ p ∈ r, p.1 ≠ k) : (l ++ r).lookup k = l.lookup k := by
  induction l with
  | nil =>
    rw [List.nil_append]
    have := lookup_skip r [] k h
    rw [List.append_nil] at this
    exact this
  | cons p l ih =>
    rw [List.cons_append, List.lookup_cons, List.lookup_cons, ih]

theorem foldl_min (l : List Int) (a : Int) (h : ∀ x ∈ l, a ≤ x) : l.foldl min a = a := by
  induction l with
  | nil => rfl
  | cons x l ih =>
    rw [List.foldl_cons, min_eq_left (h x (by simp))]
    exact ih fun y hy => h y (by simp [hy])

theorem foldl_max_le (l : List Int) (a b : Int) (ha : a ≤ b) (h : ∀ x ∈ l, x ≤ b) : l.foldl max a ≤ b := by
  induction l generalizing a with
  | nil => exact ha
  | cons x l ih => exact ih (max a x) (max_le ha (h x (by simp))) fun y hy => h y (by simp [hy])

theorem foldl_max_ge (l : List Int) (a : Int) : a ≤ l.foldl max a ∧ ∀ x ∈ l, x ≤ l.foldl max a := by
  induction l generalizing a with
  | nil => simp
  | cons x l ih =>
    obtain ⟨h1, h2⟩ := ih (max a x)
    rw [List.foldl_cons]
    refine ⟨(le_max_left a x).trans h1, fun y hy => ?_⟩
    rcases List.mem_cons.mp hy with rfl | hy
    · exact (le_max_right a y).trans h1
    · exact h2 y hy

/-- The rows of a column. -/
def rowsOf (t : List ℝ) (c : List ℂ) : Rows := (t.zip c).map fun x => (x.1, x.2.re, x.2.im)

theorem rowsOf_times (t : List ℝ) (c : List ℂ) (h : c.length = t.length) : (rowsOf t c).map (fun r => r.1) = t := by
  unfold rowsOf
  rw [List.map_map]
  exact List.map_fst_zip (by omega)

theorem rowsOf_values (t : List ℝ) (c : List ℂ) (h : c.length = t.length) : (rowsOf t c).map (fun r => (⟨r.2.1, r.2.2⟩ : ℂ)) = c := by
  unfold rowsOf
  rw [List.map_map]
  exact List.map_snd_zip (by omega)

theorem rowsOf_length (t : List ℝ) (c : List ℂ) (h : c.length = t.length) : (rowsOf t c).length = t.length := by simp [rowsOf, h]

theorem mapM_ok {α β : Type} (f : α → Py β) (g : α → β) (l : List α) (h : ∀ x ∈ l, f x = .ok (g x)) : l.mapM f = .ok (l.map g) := by
  induction l with
  | nil => rfl
  | cons x l ih =>
    rw [List.mapM_cons, h x (by simp), ih fun y hy => h y (by simp [hy])]
    rfl

/-- What is read from a group that was written is the waveform, without the frame. -/
theorem readGroup_written (ext : Ext) (hl : ∀ l, (ext.listing l).Perm l) (w : Wave) (hw : Valid w) (text : Str) (attributes : List (String × AttrVal)) (ha : Free attributes)
    (g : Group) (hg : groupOf w text attributes true = .ok g) (file : Str) (root : Group) (kw : Kw) :
    readGroup ext file root g kw = .ok { w with frame := [], version := root.version.getD [], history := text, spaceTranslation := vector attributes "space_translation" (ext.find "space_translation" text), boostVelocity := vector attributes "boost_velocity" (ext.find "boost_velocity" text) } := by
  obtain ⟨dt, hdt, hdt2⟩ := Verif.Props.DataTypes.from_to w.dataType hw.type
  unfold groupOf at hg
  rw [hdt, ok_bind, if_pos rfl, pure_eq_ok] at hg
  have hg := (Except.ok.inj hg).symm
  have hskip : ∀ (k : String) (r : List (String × AttrVal)), (k = "MIsScaledOut" ∨ k = "RIsScaledOut" ∨ k = "DataType" ∨ k = "FrameType") → (attributes.reverse ++ r).lookup k = r.lookup k := by
    intro k r hk
    refine lookup_skip _ _ _ fun p hp => ?_
    have := ha p (List.mem_reverse.mp hp)
    rcases hk with rfl | rfl | rfl | rfl
    · exact this.1
    · exact this.2.1
    · exact this.2.2.1
    · exact this.2.2.2.1
  have hframe : readFrame g = .ok [] := by rw [hg]; rfl
  have hft : intAttr g "FrameType" (kw.frameType.getD 1) = .ok w.frameType := by
    have : attr g "FrameType" = some (.int w.frameType) := by
      unfold attr
      rw [hg]
      exact (hskip _ _ (by simp)).trans (by simp [List.lookup])
    simp only [intAttr, this]
  have hty : readDataType g file kw = .ok w.dataType := by
    have : attr g "DataType" = some (.int dt) := by
      unfold attr
      rw [hg]
      exact (hskip _ _ (by simp)).trans (by simp [List.lookup])
    simp only [readDataType, this, hdt2]
  have hr : boolAttr g "RIsScaledOut" (kw.rScaled.getD true) = .ok w.rScaled := by
    have : attr g "RIsScaledOut" = some (.int (if w.rScaled then 1 else 0)) := by
      unfold attr
      rw [hg]
      exact (hskip _ _ (by simp)).trans (by simp [List.lookup])
    simp only [boolAttr, this]
    cases w.rScaled <;> simp
  have hm : boolAttr g "MIsScaledOut" (kw.mScaled.getD true) = .ok w.mScaled := by
    have : attr g "MIsScaledOut" = some (.int (if w.mScaled then 1 else 0)) := by
      unfold attr
      rw [hg]
      exact (hskip _ _ (by simp)).trans (by simp [List.lookup])
    simp only [boolAttr, this]
    cases w.mScaled <;> simp
  have hvec : ∀ name, (name = "space_translation" ∨ name = "boost_velocity") → readVector ext g name = vector attributes name (ext.find name text) := by
    intro name hname
    have h1 : attr g name = attributes.reverse.lookup name := by
      unfold attr
      rw [hg]
      refine lookup_other _ _ _ fun p hp => ?_
      simp only [List.mem_cons, List.not_mem_nil, or_false] at hp
      rcases hp with rfl | rfl | rfl | rfl | rfl <;> rcases hname with rfl | rfl <;> simp
    have h2 : g.history = some text := by rw [hg]
    unfold readVector vector
    rw [h1, h2]
    rcases attributes.reverse.lookup name with _ | v
    · rfl
    · rcases v with n | r | _ <;> rfl
  obtain ⟨l, hldef⟩ : ∃ l : List ((Int × Int) × Rows), l = ((LMRange w.ellMin w.ellMax).zip w.cols).map fun p => (p.1, rowsOf w.t p.2) := ⟨_, rfl⟩
  have hlkeys : l.map (fun p => p.1) = LMRange w.ellMin w.ellMax := by
    rw [hldef, List.map_map]
    exact List.map_fst_zip (by rw [hw.modes])
  have hlcols : ∀ p ∈ l, ∃ c ∈ w.cols, p.2 = rowsOf w.t c := by
    intro p hp
    rw [hldef] at hp
    obtain ⟨q, hq, rfl⟩ := List.mem_map.mp hp
    exact ⟨q.2, (List.of_mem_zip hq).2, rfl⟩
  have hpos : ∀ p ∈ l, 0 ≤ p.1.1 := by
    intro p hp
    have : p.1 ∈ LMRange w.ellMin w.ellMax := by rw [← hlkeys]; exact List.mem_map.mpr ⟨p, hp, rfl⟩
    have := (mem_LMRange (ell := p.1.1) (m := p.1.2)).mp this
    have := hw.ells
    omega
  have hsets : g.sets = l.map fun p => (setName p.1.1 p.1.2, p.2) := by
    rw [hg, hldef, List.map_map]
    rfl
  obtain ⟨k, hk, hkp⟩ := keyed_perm l hpos (ext.listing g.sets) (by rw [← hsets]; exact hl _)
  have hsort := sort_sets hw.ells.1 hkp hlkeys
  obtain ⟨first, rest, hfr⟩ : ∃ first rest, l = first :: rest := by
    rcases l with _ | ⟨f, r⟩
    · have h0 : (w.ellMin, (0 : Int)) ∈ LMRange w.ellMin w.ellMax := mem_LMRange.mpr ⟨⟨le_refl _, hw.ells.2⟩, by have := hw.ells.1; omega, hw.ells.1⟩
      rw [← hlkeys] at h0
      simp at h0
    · exact ⟨f, r, rfl⟩
  have hkeysort : ((first :: rest).map fun s => s.1).mergeSort keyLe = LMRange w.ellMin w.ellMax := by
    refine sort_keys ?_
    rw [← hfr, hlkeys]
  have hmem : ∀ x ∈ (LMRange w.ellMin w.ellMax).map fun k => k.1, w.ellMin ≤ x ∧ x ≤ w.ellMax := by
    intro x hx
    obtain ⟨p, hp, rfl⟩ := List.mem_map.mp hx
    exact ((mem_LMRange (ell := p.1) (m := p.2)).mp hp).1
  have hfirst : first.1.1 = w.ellMin := by
    have h1 : first.1 ∈ LMRange w.ellMin w.ellMax := by rw [← hlkeys, hfr]; simp
    have h2 := (mem_LMRange (ell := first.1.1) (m := first.1.2)).mp h1
    have h0 : (w.ellMin, (0 : Int)) ∈ LMRange w.ellMin w.ellMax := mem_LMRange.mpr ⟨⟨le_refl _, hw.ells.2⟩, by have := hw.ells.1; omega, hw.ells.1⟩
    have hs := LMRange_sorted w.ellMin w.ellMax
    rw [← hlkeys, hfr, List.map_cons] at hs h0
    rcases List.mem_cons.mp h0 with he | ht
    · rw [← he]
    · have := (List.pairwise_cons.mp hs).1 _ ht
      simp only [keyLe, Bool.or_eq_true, Bool.and_eq_true, decide_eq_true_eq] at this
      omega
  have hmin : ((LMRange w.ellMin w.ellMax).map fun k => k.1).foldl min first.1.1 = w.ellMin := by
    rw [hfirst]
    exact foldl_min _ _ fun x hx => (hmem x hx).1
  have hmax : ((LMRange w.ellMin w.ellMax).map fun k => k.1).foldl max first.1.1 = w.ellMax := by
    rw [hfirst]
    refine le_antisymm (foldl_max_le _ _ _ hw.ells.2 fun x hx => (hmem x hx).2) ?_
    refine (foldl_max_ge _ _).2 _ (List.mem_map.mpr ⟨(w.ellMax, 0), mem_LMRange.mpr ⟨⟨hw.ells.2, le_refl _⟩, ?_, ?_⟩, rfl⟩) <;> have := hw.ells <;> omega
  obtain ⟨c0, hc0, hf2⟩ := hlcols first (by rw [hfr]; simp)
  have hT : first.2.map (fun r => r.1) = w.t := by rw [hf2]; exact rowsOf_times _ _ (hw.rows c0 hc0)
  obtain ⟨mask, hmask, hml, hmall⟩ := mask_all w.t hw.some
  have hall := hmall.mpr hw.mono
  have ht : ((List.range w.t.length).filterMap fun i => if mask.getD i false then w.t[i]? else none) = w.t := by
    have := filterMap_all w.t mask hml hall id
    simpa using this
  have hcols : (first :: rest).mapM (fun s => readColumn mask w.t.length s.2) = .ok w.cols := by
    rw [mapM_ok _ (fun s => s.2.map fun r => (⟨r.2.1, r.2.2⟩ : ℂ))]
    · congr 1
      rw [← hfr, hldef, List.map_map]
      have : ((fun s : (Int × Int) × Rows => s.2.map fun r => (⟨r.2.1, r.2.2⟩ : ℂ)) ∘ fun p : (Int × Int) × List ℂ => (p.1, rowsOf w.t p.2)) = fun p => (rowsOf w.t p.2).map fun r => (⟨r.2.1, r.2.2⟩ : ℂ) := rfl
      rw [this]
      refine Eq.trans (List.map_congr_left fun p hp => ?_) (List.map_snd_zip (l₁ := LMRange w.ellMin w.ellMax) (by rw [hw.modes]))
      exact rowsOf_values _ _ (hw.rows _ (List.of_mem_zip hp).2)
    · intro s hs
      obtain ⟨c, hc, he⟩ := hlcols s (by rw [hfr]; exact hs)
      have hlen : s.2.length = w.t.length := by rw [he]; exact rowsOf_length _ _ (hw.rows c hc)
      unfold readColumn
      rw [if_neg (by simp [hlen])]
      congr 1
      exact filterMap_all s.2 mask (by rw [hml, hlen]) hall _
  unfold readGroup
  rw [hframe, ok_bind, hft, ok_bind, hty, ok_bind, hr, ok_bind, hm, ok_bind, hk, ok_bind, hsort, hfr]
  simp only [hkeysort, hmin, hmax, ne_eq, not_true, if_false]
  rw [hT, hmask, ok_bind, ht, hcols, ok_bind, hvec _ (Or.inl rfl), hvec _ (Or.inr rfl)]
  have hh : g.history = some text := by rw [hg]
  rw [hh]
  rfl

/-- What a successful write did. -/
theorem write_ok {ext : Ext} {fs : Fs} {w : Wave} {name : Str} {mode : Mode} {attributes : List (String × AttrVal)} {nrar : Bool} (h : (write ext fs w name mode attributes nrar).2 = .ok ()) :
    ∃ file path F g, writeTarget name = .ok (file, path) ∧ openFile mode (fs (decorate (ext.descriptor w) file)) = .ok F ∧ isFree F path = true ∧
      groupOf w (w.history ++ ext.note w (decorate (ext.descriptor w) file)) attributes nrar = .ok g ∧
      (write ext fs w name mode attributes nrar).1 = setFile fs (decorate (ext.descriptor w) file) (putGroup F path g) := by
  unfold write at h ⊢
  rcases h1 : writeTarget name with e | ⟨file, path⟩
  · rw [h1] at h; cases h
  rw [h1] at h
  simp only at h ⊢
  rcases h2 : openFile mode (fs (decorate (ext.descriptor w) file)) with e | F
  · rw [h2] at h; cases h
  rw [h2] at h
  simp only at h ⊢
  by_cases h3 : isFree F path = false
  · rw [if_pos h3] at h; cases h
  rw [if_neg h3] at h
  rcases h4 : groupOf w (w.history ++ ext.note w (decorate (ext.descriptor w) file)) attributes nrar with e | g
  · rw [h4] at h; cases h
  refine ⟨file, path, F, g, rfl, h2, by simpa using h3, h4, ?_⟩
  rw [if_neg h3]

theorem open_clean {fs : Fs} (hc : Clean fs) {name : Str} {mode : Mode} {F : File} (h : openFile mode (fs name) = .ok F) : F.root.history = none → F.root = {} := by
  rcases hf : fs name with _ | F0
  · rw [hf] at h
    cases mode <;> simp [openFile] at h <;> subst h <;> intro _ <;> rfl
  · rw [hf] at h
    have := hc name F0 hf
    cases mode <;> simp [openFile] at h <;> subst h <;> first | exact this | (intro _; rfl)

/-- Files stay as they should be, whatever is written. -/
theorem clean_write (ext : Ext) (fs : Fs) (hc : Clean fs) (w : Wave) (name : Str) (mode : Mode) (attributes : List (String × AttrVal)) (nrar : Bool) :
    Clean (write ext fs w name mode attributes nrar).1 := by
  have put : ∀ file F, (F.root.history = none → F.root = {}) → Clean (setFile fs file F) := by
    intro file F hF n G hG
    unfold setFile at hG
    split at hG
    · cases hG; exact hF
    · exact hc n G hG
  unfold write
  rcases writeTarget name with e | ⟨file, path⟩
  · exact hc
  simp only
  rcases h2 : openFile mode (fs (decorate (ext.descriptor w) file)) with e | F
  · exact hc
  have hF := open_clean hc h2
  simp only
  split
  · exact put _ _ hF
  · rcases h4 : groupOf w (w.history ++ ext.note w (decorate (ext.descriptor w) file)) attributes nrar with e | g
    · exact put _ _ hF
    · refine put _ _ ?_
      rcases path with _ | p
      · intro hh
        have : g.history = none := hh
        unfold groupOf at h4
        rcases hx : DataTypes.toGWFrames w.dataType with e | dt
        · rw [hx] at h4; cases h4
        · rw [hx] at h4
          cases nrar
          · have := Except.ok.inj h4
            subst this
            cases hh
          · have := Except.ok.inj h4
            subst this
            cases hh
      · exact hF

theorem clean_empty : Clean fun _ => none := by intro n F h; cases h

/-- Where a waveform is found that was written. -/
theorem read_back (ext : Ext) (fs : Fs) (hc : Clean fs) (w : Wave) (name : Str) (hn : ['.', 'h', '5'] <:+: name) (mode : Mode) (attributes : List (String × AttrVal)) (nrar : Bool)
    (hok : (write ext fs w name mode attributes nrar).2 = .ok ()) (kw : Kw) :
    ∃ file path root g, writeTarget name = .ok (file, path) ∧ groupOf w (w.history ++ ext.note w (decorate (ext.descriptor w) file)) attributes nrar = .ok g ∧
      (path = none → root = g) ∧ (fs (decorate (ext.descriptor w) file) = none → path ≠ none → root = {}) ∧
      readFile ext (write ext fs w name mode attributes nrar).1 (decorate (ext.descriptor w) file ++ path.getD []) kw = readGroup ext (decorate (ext.descriptor w) file) root g kw := by
  obtain ⟨file, path, F, g, h1, h2, h3, h4, h5⟩ := write_ok hok
  obtain ⟨h6, h7⟩ := target_back (d := ext.descriptor w) hn h1
  have hF := open_clean hc h2
  rw [h5]
  rcases path with _ | p
  · have hroot : F.root = {} := hF (by simpa [isFree] using h3)
    have hput : (putGroup F none g).root = g := by simp [putGroup, hroot]
    refine ⟨file, none, g, g, h1, h4, fun _ => rfl, fun _ h => absurd rfl h, ?_⟩
    unfold readFile
    rw [h6]
    simp only [setFile, if_true, Option.getD_none, hput]
  · have hp : p ≠ [] := fun h => h7 (by rw [h])
    refine ⟨file, some p, F.root, g, h1, h4, fun h => (by cases h), ?_, ?_⟩
    · intro hnone _
      rw [hnone] at h2
      cases mode <;> simp [openFile] at h2 <;> subst h2 <;> rfl
    · unfold readFile
      rw [h6]
      simp only [setFile, Option.getD_some, hp, if_false, putGroup, if_true]

/-- C74: a waveform that is written (in the NRAR format, the default) and read back has the same times, data, range of ell, frame type, data type and flags; vectors that were added as attributes come
back, too.  The version history comes back from the root of a file.  This holds for any file name, group, mode and keyword arguments, whatever was in the files before and in whatever order the datasets are
listed.  The frame is the exception: it is not written. -/
theorem round_trip_partial (ext : Ext) (hl : ∀ l, (ext.listing l).Perm l) (fs : Fs) (hc : Clean fs) (w : Wave) (hw : Valid w) (name : Str) (hn : ['.', 'h', '5'] <:+: name) (mode : Mode)
    (attributes : List (String × AttrVal)) (ha : Free attributes) (hok : (write ext fs w name mode attributes true).2 = .ok ()) (kw : Kw) :
    ∃ file path r, writeTarget name = .ok (file, path) ∧ readFile ext (write ext fs w name mode attributes true).1 (decorate (ext.descriptor w) file ++ path.getD []) kw = .ok r ∧
      r.t = w.t ∧ r.cols = w.cols ∧ r.ellMin = w.ellMin ∧ r.ellMax = w.ellMax ∧ r.frameType = w.frameType ∧ r.dataType = w.dataType ∧ r.rScaled = w.rScaled ∧ r.mScaled = w.mScaled ∧ r.frame = [] ∧
      (path = none → r.version = w.version.map fun p => (ascii p.1, ascii p.2)) ∧
      (∀ l, attributes.reverse.lookup "space_translation" = some (.reals l) → r.spaceTranslation = some l) ∧
      (∀ l, attributes.reverse.lookup "boost_velocity" = some (.reals l) → r.boostVelocity = some l) := by
  obtain ⟨file, path, root, g, h1, h2, h3, -, h4⟩ := read_back ext fs hc w name hn mode attributes true hok kw
  rw [readGroup_written ext hl w hw _ attributes ha g h2] at h4
  refine ⟨file, path, _, h1, h4, rfl, rfl, rfl, rfl, rfl, rfl, rfl, rfl, rfl, fun hp => ?_, fun l hl => ?_, fun l hl => ?_⟩
  · show root.version.getD [] = _
    rw [h3 hp]
    obtain ⟨dt, hdt, -⟩ := Verif.Props.DataTypes.from_to w.dataType hw.type
    unfold groupOf at h2
    rw [hdt, ok_bind, if_pos rfl, pure_eq_ok] at h2
    have := Except.ok.inj h2
    subst this
    show (if w.version.length > 0 then some (w.version.map fun p => (ascii p.1, ascii p.2)) else none).getD [] = _
    split
    · rfl
    · rename_i h
      have : w.version = [] := by simpa using h
      rw [this]
      rfl
  · show vector attributes "space_translation" _ = _
    simp only [vector, hl]
  · show vector attributes "boost_velocity" _ = _
    simp only [vector, hl]

/-- A write changes nothing outside its file; and nothing in other groups of the file unless the mode is `"w"`. -/
theorem write_local (ext : Ext) (fs : Fs) (w : Wave) (name : Str) (mode : Mode) (attributes : List (String × AttrVal)) (nrar : Bool) (file : Str) (path : Option Str)
    (ht : writeTarget name = .ok (file, path)) :
    (∀ other, other ≠ decorate (ext.descriptor w) file → (write ext fs w name mode attributes nrar).1 other = fs other) ∧
    (mode ≠ .w → ∀ F, fs (decorate (ext.descriptor w) file) = some F → ∃ G, (write ext fs w name mode attributes nrar).1 (decorate (ext.descriptor w) file) = some G ∧
      (∀ p, path ≠ some p → G.groups p = F.groups p) ∧ (path ≠ none → G.root = F.root)) := by
  constructor
  · intro other hne
    unfold write
    rw [ht]
    simp only
    rcases openFile mode (fs (decorate (ext.descriptor w) file)) with e | F
    · rfl
    simp only
    split
    · simp [setFile, hne]
    · rcases groupOf w (w.history ++ ext.note w (decorate (ext.descriptor w) file)) attributes nrar with e | g <;> simp [setFile, hne]
  · intro hm F hF
    unfold write
    rw [ht]
    simp only [hF]
    rcases hopen : openFile mode (some F) with e | F'
    · exact ⟨F, hF, fun _ _ => rfl, fun _ => rfl⟩
    have hFF : F' = F := by cases mode <;> simp [openFile] at hopen hm <;> exact hopen.symm
    subst hFF
    simp only
    split
    · exact ⟨F', by simp [setFile], fun _ _ => rfl, fun _ => rfl⟩
    · rcases groupOf w (w.history ++ ext.note w (decorate (ext.descriptor w) file)) attributes nrar with e | g
      · exact ⟨F', by simp [setFile], fun _ _ => rfl, fun _ => rfl⟩
      · refine ⟨putGroup F' path g, by simp [setFile], fun p hp => ?_, fun hp => ?_⟩
        · rcases path with _ | q
          · rfl
          · simp only [putGroup]
            rw [if_neg]
            rintro rfl
            exact hp rfl
        · rcases path with _ | q
          · exact absurd rfl hp
          · rfl

/-! ## Reading any file -/

theorem keyed_mem {sets : List (Str × Rows)} {ks : List ((Int × Int) × Rows)} (h : keyed sets = .ok ks) : ∀ p ∈ ks, ∃ name LM, (name, p.2) ∈ sets ∧ search name = some LM ∧ key LM = .ok p.1 := by
  induction sets generalizing ks with
  | nil => cases h; simp
  | cons s sets ih =>
    obtain ⟨name, rows⟩ := s
    rw [keyed] at h
    rcases hs : search name with _ | LM
    · rw [hs] at h
      intro p hp
      obtain ⟨n, L, h1, h2⟩ := ih h p hp
      exact ⟨n, L, by simp [h1], h2⟩
    · rw [hs] at h
      simp only at h
      rcases hk : key LM with e | k
      · rw [hk] at h; cases h
      rcases hr : keyed sets with e | r
      · rw [hk, hr] at h; cases h
      rw [hk, hr] at h
      have := Except.ok.inj h
      subst this
      intro p hp
      rcases List.mem_cons.mp hp with rfl | hp
      · exact ⟨name, LM, by simp, hs, hk⟩
      · obtain ⟨n, L, h1, h2⟩ := ih hr p hp
        exact ⟨n, L, by simp [h1], h2⟩

theorem mapM_get {α β : Type} {f : α → Py β} {l : List α} {r : List β} (h : l.mapM f = .ok r) : r.length = l.length ∧ ∀ (i : Nat) (x : α), l[i]? = some x → ∃ y, f x = .ok y ∧ r[i]? = some y := by
  induction l generalizing r with
  | nil => cases h; simp
  | cons a l ih =>
    rw [List.mapM_cons] at h
    rcases ha : f a with e | b
    · rw [ha] at h; cases h
    rcases hl : l.mapM f with e | bs
    · rw [ha, hl] at h; cases h
    rw [ha, hl] at h
    have := Except.ok.inj h
    subst this
    obtain ⟨h1, h2⟩ := ih hl
    refine ⟨by simp [h1], fun i x hx => ?_⟩
    rcases i with _ | i
    · simp at hx; subst hx; exact ⟨b, ha, rfl⟩
    · exact h2 i x hx

/-- C74: whatever file is read: if this gives a waveform, its columns are those of datasets with the names of the modes, in the order of the modes, and its times are those of the first of them, which increase or
decrease. -/
theorem read_sound (ext : Ext) (hl : ∀ l, (ext.listing l).Perm l) (file : Str) (root g : Group) (kw : Kw) (r : Wave) (h : readGroup ext file root g kw = .ok r) :
    (r.t.Pairwise (· < ·) ∨ r.t.Pairwise (· > ·)) ∧ r.cols.length = (LMRange r.ellMin r.ellMax).length ∧
    ∀ i lm, (LMRange r.ellMin r.ellMax)[i]? = some lm → ∃ name LM rows, (name, rows) ∈ g.sets ∧ search name = some LM ∧ key LM = .ok lm ∧ rows.length = r.t.length ∧
      r.cols[i]? = some (rows.map fun x => ⟨x.2.1, x.2.2⟩) ∧ (i = 0 → r.t = rows.map fun x => x.1) := by
  unfold readGroup at h
  rcases h1 : readFrame g with e | frame
  · rw [h1] at h; cases h
  rcases h2 : intAttr g "FrameType" (kw.frameType.getD 1) with e | ft
  · rw [h1, h2] at h; cases h
  rcases h3 : readDataType g file kw with e | dt
  · rw [h1, h2, h3] at h; cases h
  rcases h4 : boolAttr g "RIsScaledOut" (kw.rScaled.getD true) with e | rs
  · rw [h1, h2, h3, h4] at h; cases h
  rcases h5 : boolAttr g "MIsScaledOut" (kw.mScaled.getD true) with e | ms
  · rw [h1, h2, h3, h4, h5] at h; cases h
  rcases h6 : keyed (ext.listing g.sets) with e | ks
  · rw [h1, h2, h3, h4, h5, h6] at h; cases h
  rw [h1, h2, h3, h4, h5, h6] at h
  simp only [ok_bind] at h
  rcases h7 : ks.mergeSort (fun a b => keyLe a.1 b.1) with _ | ⟨first, rest⟩
  · rw [h7] at h; cases h
  rw [h7] at h
  simp only at h
  have hperm : (first :: rest).Perm ks := by rw [← h7]; exact List.mergeSort_perm _ _
  have hsorted : ((first :: rest).map fun s => s.1).Pairwise fun x y => keyLe x y = true := by
    rw [← h7, List.pairwise_map]
    exact List.pairwise_mergeSort (fun x y z => keyLe_trans x.1 y.1 z.1) (fun x y => keyLe_total x.1 y.1) ks
  have hLM : ((first :: rest).map fun s => s.1).mergeSort keyLe = (first :: rest).map fun s => s.1 := List.mergeSort_of_pairwise hsorted
  rw [hLM] at h
  split at h
  · cases h
  rename_i hrange
  push Not at hrange
  rcases h8 : Monotonic.indexIsMonotonic (first.2.map fun r => r.1) with e | mask
  · rw [h8] at h; cases h
  rw [h8] at h
  simp only [ok_bind] at h
  have hne : first.2.map (fun r => r.1) ≠ [] := by
    intro he
    rw [he] at h8
    cases h8
  obtain ⟨mask', h8', hml, hmall⟩ := mask_all _ hne
  rw [h8] at h8'
  have hmm := Except.ok.inj h8'
  subst hmm
  rcases h9 : (first :: rest).mapM (fun s => readColumn mask ((List.range (first.2.map fun r => r.1).length).filterMap fun i => if mask.getD i false then (first.2.map fun r => r.1)[i]? else none).length s.2) with e | cols
  · rw [h9] at h; cases h
  rw [h9] at h
  have hr := Except.ok.inj h
  obtain ⟨hlen, hget⟩ := mapM_get h9
  obtain ⟨c0, hc0, -⟩ := hget 0 first rfl
  have hfl : first.2.length = ((List.range (first.2.map fun r => r.1).length).filterMap fun i => if mask.getD i false then (first.2.map fun r => r.1)[i]? else none).length := by
    unfold readColumn at hc0
    by_contra hh
    rw [if_pos hh] at hc0
    cases hc0
  have hall : ∀ b ∈ mask, b = true := by
    by_contra hh
    have := filterMap_short _ mask hml hh
    rw [← hfl, List.length_map] at this
    exact lt_irrefl _ this
  have hT : ((List.range (first.2.map fun r => r.1).length).filterMap fun i => if mask.getD i false then (first.2.map fun r => r.1)[i]? else none) = first.2.map fun r => r.1 := by
    have := filterMap_all (first.2.map fun r => r.1) mask hml hall id
    simpa using this
  rw [hT] at hr hget
  have ht : r.t = first.2.map fun r => r.1 := by rw [← hr]
  have hcols : r.cols = cols := by rw [← hr]
  have hmin : r.ellMin = (((first :: rest).map fun s => s.1).map fun k => k.1).foldl min first.1.1 := by rw [← hr]
  have hmax : r.ellMax = (((first :: rest).map fun s => s.1).map fun k => k.1).foldl max first.1.1 := by rw [← hr]
  rw [← hmin, ← hmax] at hrange
  refine ⟨?_, ?_, ?_⟩
  · rw [ht]; exact hmall.mp hall
  · rw [hcols, hlen, ← hrange, List.length_map]
  · intro i lm hi
    rw [← hrange, List.getElem?_map] at hi
    rcases hs : (first :: rest)[i]? with _ | s
    · rw [hs] at hi; cases hi
    rw [hs] at hi
    simp at hi
    subst hi
    obtain ⟨c, hc, hci⟩ := hget i s hs
    have hsm : s ∈ ks := hperm.mem_iff.mp (List.mem_of_getElem? hs)
    obtain ⟨name, LM, h10, h11, h12⟩ := keyed_mem h6 s hsm
    have hlen2 : s.2.length = (first.2.map fun r => r.1).length := by
      unfold readColumn at hc
      by_contra hh
      rw [if_pos hh] at hc
      cases hc
    refine ⟨name, LM, s.2, (hl _).mem_iff.mp h10, h11, h12, by rw [hlen2, ht], ?_, ?_⟩
    · rw [hcols, hci]
      unfold readColumn at hc
      rw [if_neg (by simp [hlen2])] at hc
      have := Except.ok.inj hc
      rw [← this]
      congr 1
      exact filterMap_all s.2 mask (by rw [hml, hlen2]) hall _
    · rintro rfl
      simp at hs
      subst hs
      exact ht

/-! ## What does not come back -/

/-- The frame of a waveform is lost: what is read has none, and this is no error. -/
theorem frame_lost (ext : Ext) (hl : ∀ l, (ext.listing l).Perm l) (w : Wave) (hw : Valid w) (hframe : w.frame ≠ []) (name : Str) (hn : ['.', 'h', '5'] <:+: name)
    (hok : (write ext (fun _ => none) w name .w [] true).2 = .ok ()) (kw : Kw) :
    ∃ file path r, writeTarget name = .ok (file, path) ∧ readFile ext (write ext (fun _ => none) w name .w [] true).1 (decorate (ext.descriptor w) file ++ path.getD []) kw = .ok r ∧
      r.frameType = w.frameType ∧ r.frame ≠ w.frame := by
  obtain ⟨file, path, r, h1, h2, -, -, -, -, h3, -, -, -, h4, -⟩ := round_trip_partial ext hl _ clean_empty w hw name hn .w [] (by intro p hp; cases hp) hok kw
  exact ⟨file, path, r, h1, h2, h3, by rw [h4]; exact hframe.symm⟩

/-- A file in the other format cannot be read at all. -/
theorem other_format_unreadable (ext : Ext) (hl : ∀ l, (ext.listing l).Perm l) (fs : Fs) (hc : Clean fs) (w : Wave) (name : Str) (hn : ['.', 'h', '5'] <:+: name) (mode : Mode)
    (attributes : List (String × AttrVal)) (hok : (write ext fs w name mode attributes false).2 = .ok ()) (kw : Kw) :
    ∃ file path e, writeTarget name = .ok (file, path) ∧ readFile ext (write ext fs w name mode attributes false).1 (decorate (ext.descriptor w) file ++ path.getD []) kw = .error e := by
  obtain ⟨file, path, root, g, h1, h2, -, -, h4⟩ := read_back ext fs hc w name hn mode attributes false hok kw
  have hsets : g.sets = [] := by
    unfold groupOf at h2
    rcases hx : DataTypes.toGWFrames w.dataType with e | dt
    · rw [hx] at h2; cases h2
    · rw [hx] at h2
      have := Except.ok.inj h2
      subst this
      rfl
  have hlist : ext.listing g.sets = [] := by rw [hsets]; exact (hl []).eq_nil
  rcases hr : readGroup ext (decorate (ext.descriptor w) file) root g kw with e | r
  · exact ⟨file, path, e, h1, h4.trans hr⟩
  · exfalso
    unfold readGroup at hr
    rw [hlist] at hr
    rcases a1 : readFrame g with e | frame
    · rw [a1] at hr; cases hr
    rcases a2 : intAttr g "FrameType" (kw.frameType.getD 1) with e | ft
    · rw [a1, a2] at hr; cases hr
    rcases a3 : readDataType g (decorate (ext.descriptor w) file) kw with e | dt
    · rw [a1, a2, a3] at hr; cases hr
    rcases a4 : boolAttr g "RIsScaledOut" (kw.rScaled.getD true) with e | rs
    · rw [a1, a2, a3, a4] at hr; cases hr
    rcases a5 : boolAttr g "MIsScaledOut" (kw.mScaled.getD true) with e | ms
    · rw [a1, a2, a3, a4, a5] at hr; cases hr
    rw [a1, a2, a3, a4, a5] at hr
    simp [keyed, ok_bind] at hr

/-- Times that neither increase nor decrease are filtered, but then the data never have the right length: a dataset like this cannot be read. -/
theorem non_monotonic_unreadable (ext : Ext) (hl : ∀ l, (ext.listing l).Perm l) (file : Str) (root g : Group) (kw : Kw) (ell m : Int) (rows : Rows) (hg : g.sets = [(setName ell m, rows)])
    (hm : ¬ ((rows.map fun x => x.1).Pairwise (· < ·) ∨ (rows.map fun x => x.1).Pairwise (· > ·))) : ∃ e, readGroup ext file root g kw = .error e := by
  rcases hr : readGroup ext file root g kw with e | r
  · exact ⟨e, rfl⟩
  exfalso
  obtain ⟨h1, h2, h3⟩ := read_sound ext hl file root g kw r hr
  rcases hLM : LMRange r.ellMin r.ellMax with _ | ⟨lm, rest⟩
  · rw [hLM] at h2
    unfold readGroup at hr
    have hcols : r.cols = [] := by simpa using h2
    rcases a1 : readFrame g with e | frame
    · rw [a1] at hr; cases hr
    rcases a2 : intAttr g "FrameType" (kw.frameType.getD 1) with e | ft
    · rw [a1, a2] at hr; cases hr
    rcases a3 : readDataType g file kw with e | dt
    · rw [a1, a2, a3] at hr; cases hr
    rcases a4 : boolAttr g "RIsScaledOut" (kw.rScaled.getD true) with e | rs
    · rw [a1, a2, a3, a4] at hr; cases hr
    rcases a5 : boolAttr g "MIsScaledOut" (kw.mScaled.getD true) with e | ms
    · rw [a1, a2, a3, a4, a5] at hr; cases hr
    rcases a6 : keyed (ext.listing g.sets) with e | ks
    · rw [a1, a2, a3, a4, a5, a6] at hr; cases hr
    rw [a1, a2, a3, a4, a5, a6] at hr
    simp only [ok_bind] at hr
    rcases a7 : ks.mergeSort (fun a b => keyLe a.1 b.1) with _ | ⟨first, rest⟩
    · rw [a7] at hr; cases hr
    rw [a7] at hr
    simp only at hr
    split at hr
    · cases hr
    rcases a8 : Monotonic.indexIsMonotonic (first.2.map fun r => r.1) with e | mask
    · rw [a8] at hr; cases hr
    rw [a8] at hr
    simp only [ok_bind] at hr
    rcases a9 : (first :: rest).mapM (fun s => readColumn mask ((List.range (first.2.map fun r => r.1).length).filterMap fun i => if mask.getD i false then (first.2.map fun r => r.1)[i]? else none).length s.2) with e | cols
    · rw [a9] at hr; cases hr
    rw [a9] at hr
    have hr' := Except.ok.inj hr
    have : cols = [] := by rw [← hr'] at hcols; exact hcols
    have hlen := (mapM_get a9).1
    rw [this] at hlen
    cases hlen
  · obtain ⟨name, LM, rows', h4, -, -, -, -, h5⟩ := h3 0 lm (by rw [hLM]; rfl)
    rw [hg] at h4
    simp at h4
    rw [h4.2] at h5
    rw [h5 rfl] at h1
    exact hm h1

/-- A path with `".h5"` twice, and a group behind, is refused by the writer; the reader takes the last one. -/
theorem two_h5 : writeTarget ['a', '.', 'h', '5', '/', 'b', '.', 'h', '5', '/', 'g'] = .error .valueError ∧
    readTarget ['a', '.', 'h', '5', '/', 'b', '.', 'h', '5', '/', 'g'] = (['a', '.', 'h', '5', '/', 'b', '.', 'h', '5'], ['/', 'g']) := by
  constructor <;> decide

/-- The version history of a waveform that is written to a group is lost, since it is looked for in the root. -/
theorem version_lost_in_group (ext : Ext) (hl : ∀ l, (ext.listing l).Perm l) (w : Wave) (hw : Valid w) (hv : w.version ≠ []) (name : Str) (hn : ['.', 'h', '5'] <:+: name) (file p : Str)
    (ht : writeTarget name = .ok (file, some p)) (hok : (write ext (fun _ => none) w name .w [] true).2 = .ok ()) (kw : Kw) :
    ∃ r, readFile ext (write ext (fun _ => none) w name .w [] true).1 (decorate (ext.descriptor w) file ++ p) kw = .ok r ∧ r.version = [] ∧ r.version ≠ w.version := by
  obtain ⟨file', path, root, g, h1, h2, -, h3, h4⟩ := read_back ext _ clean_empty w name hn .w [] true hok kw
  rw [ht] at h1
  have h1 := Except.ok.inj h1
  injection h1 with h5 h6
  subst h5 h6
  rw [readGroup_written ext hl w hw _ [] (by intro p hp; cases hp) g h2] at h4
  refine ⟨_, h4, ?_, ?_⟩
  · show root.version.getD [] = []
    rw [h3 rfl (by simp)]
    rfl
  · show root.version.getD [] ≠ _
    rw [h3 rfl (by simp)]
    exact hv.symm

/-! ## An example -/

/-- The modes with `ℓ ≤ 1` at two times, with a frame. -/
noncomputable def sample : Wave where
  t := [0, 1]
  cols := [[1, 2], [3, 4], [5, 6], [7, Complex.I]]
  ellMin := 0
  ellMax := 1
  frame := [1]
  frameType := 4
  dataType := 5
  rScaled := true
  mScaled := true
  version := [(['a'], ['b'])]
  history := []
  spaceTranslation := none
  boostVelocity := none

theorem sample_valid : Valid sample := ⟨by simp [sample], Or.inl (by simp [sample]), by simp [sample], by simp [sample]; decide, by simp [sample], by simp [sample]⟩

/-- Datasets are listed in the reverse order. -/
noncomputable def sampleExt : Ext := ⟨fun _ => ['r', 'M', 'P', 's', 'i', '4'], fun _ _ => [], List.reverse, fun _ _ => none⟩

theorem sample_written : (write sampleExt (fun _ => none) sample ['d', '/', 'x', '.', 'h', '5', '/', 'g'] .w [] true).2 = .ok () := rfl

/-- All hypotheses are met: the data come back, the frame and the version history do not. -/
example : ∃ r, readFile sampleExt (write sampleExt (fun _ => none) sample ['d', '/', 'x', '.', 'h', '5', '/', 'g'] .w [] true).1 ['d', '/', 'r', 'M', 'P', 's', 'i', '4', '_', 'x', '.', 'h', '5', '/', 'g'] {} = .ok r ∧
    r.version ≠ sample.version :=
  let ⟨r, h1, _, h2⟩ := version_lost_in_group sampleExt (fun l => l.reverse_perm) sample sample_valid (by simp [sample]) ['d', '/', 'x', '.', 'h', '5', '/', 'g'] ⟨['d', '/', 'x'], ['/', 'g'], rfl⟩
    ['d', '/', 'x', '.', 'h', '5'] ['/', 'g'] (by decide) sample_written {}
  ⟨r, h1, h2⟩

/-- A group that exists is not written to: unless the mode is `"w"`, the call raises and the files are as before. -/
theorem write_taken (ext : Ext) (fs : Fs) (w : Wave) (name : Str) (mode : Mode) (attributes : List (String × AttrVal)) (nrar : Bool) (file p : Str) (F : File) (old : Group)
    (ht : writeTarget name = .ok (file, some p)) (hF : fs (decorate (ext.descriptor w) file) = some F) (hp : F.groups p = some old) (hm : mode ≠ .w) :
    (write ext fs w name mode attributes nrar).1 = fs ∧ ∃ e, (write ext fs w name mode attributes nrar).2 = .error e := by
  unfold write
  rw [ht]
  simp only [hF]
  rcases hopen : openFile mode (some F) with e | F'
  · exact ⟨rfl, e, rfl⟩
  have hFF : F' = F := by cases mode <;> simp [openFile] at hopen hm <;> exact hopen.symm
  subst hFF
  have hfree : isFree F' (some p) = false := by simp [isFree, hp]
  simp only [hfree, if_true]
  refine ⟨?_, _, rfl⟩
  funext n
  unfold setFile
  split
  · rename_i h; rw [h, hF]
  · rfl

theorem rsplit_none {s : Str} (h : ¬ ['.', 'h', '5'] <:+: s) : rsplit s = none := by
  induction s with
  | nil => rfl
  | cons c s ih =>
    rw [List.infix_cons_iff] at h
    rw [rsplit, ih fun h' => h (Or.inr h')]
    simp only
    rw [if_neg]
    intro h'
    exact h (Or.inl (List.isPrefixOf_iff_prefix.1 h'))

/-- A name without `".h5"` is the name of a file, whose root is read. -/
theorem read_plain (ext : Ext) (fs : Fs) (name : Str) (kw : Kw) (F : File) (hn : ¬ ['.', 'h', '5'] <:+: name) (hF : fs name = some F) :
    readFile ext fs name kw = readGroup ext name F.root F.root kw := by
  have h : readTarget name = (name, []) := by
    unfold readTarget
    rw [rsplit_none hn]
  unfold readFile
  simp only [h, hF, if_true]

end Verif.Props.SpecFile
