import Verif.Spec.AbdHeap
import Mathlib.Data.Fin.VecNotation
import Mathlib.Tactic.FinCases
import Mathlib.Tactic.Linarith

/-!
# C72: `AsymptoticBondiData` objects as values
-/

namespace Verif.Props.AbdHeap

open Verif Verif.AbdHeap Verif.Spec.AbdHeap

/-- An object in memory is the object of the specification. -/
structure Same (st : State) (vs : List VObj) (o : Obj) (v : VObj) : Prop where
  time : st.times o.time = v.time
  data : ∀ k, st.data (o.cells k) = v.data k
  ellMax : o.ellMax = v.ellMax
  trunc : o.trunc = v.trunc
  frameType : o.frameType = v.frameType
  frame : o.frame = v.frame
  rows : ∀ k, (v.data k).rows = v.time.length
  cols : ∀ k, (v.data k).cols = size v.ellMax
  time_lt : o.time < st.nt
  cell_lt : ∀ k, o.cells k < st.nd
  root : v.root < vs.length

/-- The memory holds the objects of the specification. -/
structure Holds (st : State) (vs : List VObj) : Prop where
  length : st.objs.length = vs.length
  same : ∀ (i : Nat) (o : Obj) (v : VObj), st.objs[i]? = some o → vs[i]? = some v → Same st vs o v
  root : ∀ (i : Nat) (o : Obj) (v : VObj), st.objs[i]? = some o → vs[i]? = some v → ∀ k, ∃ r, st.objs[v.root]? = some r ∧ o.stimes k = r.time
  times : ∀ (i j : Nat) (o p : Obj), st.objs[i]? = some o → st.objs[j]? = some p → o.time = p.time → i = j
  cells : ∀ (i j : Nat) (o p : Obj) (k l : Fin 6), st.objs[i]? = some o → st.objs[j]? = some p → o.cells k = p.cells l → i = j ∧ k = l

theorem Holds.obj {st : State} {vs : List VObj} (h : Holds st vs) (i : Nat) : (∃ o v, st.objs[i]? = some o ∧ vs[i]? = some v ∧ st.obj i = .ok o) ∨ (vs[i]? = none ∧ st.obj i = .error .nameError) := by
  by_cases hi : i < st.objs.length
  · refine Or.inl ⟨st.objs[i], vs[i]'(by rw [← h.length]; exact hi), List.getElem?_eq_getElem hi, List.getElem?_eq_getElem _, ?_⟩
    simp [State.obj, List.getElem?_eq_getElem hi]
  · refine Or.inr ⟨List.getElem?_eq_none (by rw [← h.length]; omega), ?_⟩
    simp [State.obj, List.getElem?_eq_none (show st.objs.length ≤ i by omega)]

/-- The times of the root are those of the series. -/
theorem Holds.stime {st : State} {vs : List VObj} (h : Holds st vs) {i : Nat} {o : Obj} {v : VObj} (ho : st.objs[i]? = some o) (hv : vs[i]? = some v) (k : Fin 6) :
    ∃ r w, st.objs[v.root]? = some r ∧ vs[v.root]? = some w ∧ o.stimes k = r.time ∧ st.times (o.stimes k) = w.time ∧ timeOf vs v.root = w.time := by
  obtain ⟨r, hr, e⟩ := h.root i o v ho hv k
  have hlt := (h.same i o v ho hv).root
  refine ⟨r, vs[v.root], hr, List.getElem?_eq_getElem hlt, e, ?_, ?_⟩
  · rw [e]
    exact (h.same _ _ _ hr (List.getElem?_eq_getElem hlt)).time
  · simp [timeOf, List.getElem?_eq_getElem hlt]

/-- New times for one object. -/
theorem Holds.putTime {st : State} {vs : List VObj} (h : Holds st vs) {j : Nat} {p : Obj} {w : VObj} (hp : st.objs[j]? = some p) (hw : vs[j]? = some w) (x : List ℝ) (hx : x.length = w.time.length) :
    Holds { st with times := upd st.times p.time x } (Spec.AbdHeap.putTime vs j x) := by
  have get : ∀ i, (Spec.AbdHeap.putTime vs j x)[i]? = (vs[i]?).map fun v => if j = i then { v with time := x } else v := by
    intro i
    unfold Spec.AbdHeap.putTime
    rw [List.getElem?_modify]
    split <;> simp
  refine ⟨by simp [Spec.AbdHeap.putTime, h.length], ?_, ?_, h.times, h.cells⟩
  · intro i o v ho hv
    rw [get] at hv
    rcases hu : vs[i]? with _ | u
    · rw [hu] at hv; cases hv
    rw [hu] at hv
    simp only [Option.map_some, Option.some.injEq] at hv
    have s := h.same i o u ho hu
    by_cases hij : j = i
    · subst hij
      rw [hp] at ho
      cases ho
      rw [hw] at hu
      cases hu
      rw [if_pos rfl] at hv
      subst hv
      exact ⟨by simp [upd], s.data, s.ellMax, s.trunc, s.frameType, s.frame, fun k => by rw [s.rows k]; exact hx.symm, s.cols, s.time_lt, s.cell_lt, by simpa [Spec.AbdHeap.putTime] using s.root⟩
    · rw [if_neg hij] at hv
      subst hv
      refine ⟨?_, s.data, s.ellMax, s.trunc, s.frameType, s.frame, s.rows, s.cols, s.time_lt, s.cell_lt, by simpa [Spec.AbdHeap.putTime] using s.root⟩
      have : o.time ≠ p.time := fun e => hij (h.times _ _ _ _ ho hp e).symm
      simp only [upd, if_neg this]
      exact s.time
  · intro i o v ho hv k
    rw [get] at hv
    rcases hu : vs[i]? with _ | u
    · rw [hu] at hv; cases hv
    rw [hu] at hv
    simp only [Option.map_some, Option.some.injEq] at hv
    obtain ⟨r, hr, e⟩ := h.root i o u ho hu k
    have : v.root = u.root := by
      rw [← hv]
      split <;> rfl
    exact ⟨r, by rw [this]; exact hr, e⟩

/-- New data for one series. -/
theorem Holds.putData {st : State} {vs : List VObj} (h : Holds st vs) {j : Nat} {p : Obj} {w : VObj} (hp : st.objs[j]? = some p) (hw : vs[j]? = some w) (k : Fin 6) (x : Arr2)
    (hr : x.rows = (w.data k).rows) (hc : x.cols = (w.data k).cols) :
    Holds { st with data := upd st.data (p.cells k) x } (vs.modify j fun v => { v with data := fun l => if l = k then x else v.data l }) := by
  have get : ∀ i, (vs.modify j fun v => { v with data := fun l => if l = k then x else v.data l })[i]? = (vs[i]?).map fun v => if j = i then { v with data := fun l => if l = k then x else v.data l } else v := by
    intro i
    rw [List.getElem?_modify]
    split <;> simp
  refine ⟨by simp [h.length], ?_, ?_, h.times, h.cells⟩
  · intro i o v ho hv
    rw [get] at hv
    rcases hu : vs[i]? with _ | u
    · rw [hu] at hv; cases hv
    rw [hu] at hv
    simp only [Option.map_some, Option.some.injEq] at hv
    have s := h.same i o u ho hu
    by_cases hij : j = i
    · subst hij
      rw [hp] at ho
      cases ho
      rw [hw] at hu
      cases hu
      rw [if_pos rfl] at hv
      subst hv
      refine ⟨s.time, ?_, s.ellMax, s.trunc, s.frameType, s.frame, ?_, ?_, s.time_lt, s.cell_lt, by simpa using s.root⟩
      · intro l
        simp only [upd]
        by_cases hl : l = k
        · rw [hl, if_pos rfl, if_pos rfl]
        · have : p.cells l ≠ p.cells k := fun e => hl (h.cells _ _ _ _ _ _ hp hp e).2
          rw [if_neg this, if_neg hl]
          exact s.data l
      · intro l
        simp only
        split
        · rw [hr]; exact s.rows k
        · exact s.rows l
      · intro l
        simp only
        split
        · rw [hc]; exact s.cols k
        · exact s.cols l
    · rw [if_neg hij] at hv
      subst hv
      refine ⟨s.time, ?_, s.ellMax, s.trunc, s.frameType, s.frame, s.rows, s.cols, s.time_lt, s.cell_lt, by simpa using s.root⟩
      intro l
      have : o.cells l ≠ p.cells k := fun e => hij (h.cells _ _ _ _ _ _ ho hp e).1.symm
      simp only [upd, if_neg this]
      exact s.data l
  · intro i o v ho hv l
    rw [get] at hv
    rcases hu : vs[i]? with _ | u
    · rw [hu] at hv; cases hv
    rw [hu] at hv
    simp only [Option.map_some, Option.some.injEq] at hv
    obtain ⟨r, hr, e⟩ := h.root i o u ho hu l
    have : v.root = u.root := by
      rw [← hv]
      split <;> rfl
    exact ⟨r, by rw [this]; exact hr, e⟩

/-- One more object, in new places. -/
theorem Holds.append {st : State} {vs : List VObj} (h : Holds st vs) (st' : State) (o : Obj) (v : VObj) (hobjs : st'.objs = st.objs) (ht : ∀ a < st.nt, st'.times a = st.times a)
    (hd : ∀ a < st.nd, st'.data a = st.data a) (hnt : st'.nt = st.nt + 1) (hnd : st'.nd = st.nd + 6) (ot : o.time = st.nt) (oc : ∀ k : Fin 6, o.cells k = st.nd + k)
    (e1 : st'.times o.time = v.time) (e2 : ∀ k, st'.data (o.cells k) = v.data k) (e3 : o.ellMax = v.ellMax) (e4 : o.trunc = v.trunc) (e5 : o.frameType = v.frameType) (e6 : o.frame = v.frame)
    (e7 : ∀ k, (v.data k).rows = v.time.length) (e8 : ∀ k, (v.data k).cols = size v.ellMax)
    (hroot : (v.root = vs.length ∧ ∀ k, o.stimes k = o.time) ∨ (v.root < vs.length ∧ ∀ k, ∃ r, st.objs[v.root]? = some r ∧ o.stimes k = r.time)) :
    Holds (named (st', o)) (vs ++ [v]) := by
  have hl := h.length
  have bo : (named (st', o)).objs = st.objs ++ [o] := by simp [named, hobjs]
  have old : ∀ (i : Nat) (p : Obj), (st.objs ++ [o])[i]? = some p → (i < st.objs.length ∧ st.objs[i]? = some p) ∨ (i = st.objs.length ∧ p = o) := by
    intro i p hp
    rcases lt_trichotomy i st.objs.length with hi | hi | hi
    · exact Or.inl ⟨hi, by rwa [List.getElem?_append_left hi] at hp⟩
    · subst hi
      simp at hp
      exact Or.inr ⟨rfl, hp.symm⟩
    · rw [List.getElem?_eq_none (by simp; omega)] at hp
      cases hp
  have fresh : ∀ (i : Nat) (p : Obj), st.objs[i]? = some p → p.time < st.nt ∧ ∀ k, p.cells k < st.nd := by
    intro i p hp
    have hi : i < vs.length := by
      rw [← hl]
      by_contra hc
      rw [List.getElem?_eq_none (by omega)] at hp
      cases hp
    have s := h.same i p vs[i] hp (List.getElem?_eq_getElem hi)
    exact ⟨s.time_lt, s.cell_lt⟩
  refine ⟨by rw [bo]; simp [hl], ?_, ?_, ?_, ?_⟩
  · intro i p w hp hw
    rw [bo] at hp
    rcases old i p hp with ⟨hi, hp⟩ | ⟨rfl, rfl⟩
    · rw [List.getElem?_append_left (by omega)] at hw
      have s := h.same i p w hp hw
      refine ⟨?_, ?_, s.ellMax, s.trunc, s.frameType, s.frame, s.rows, s.cols, ?_, ?_, ?_⟩
      · exact (ht _ s.time_lt).trans s.time
      · exact fun k => (hd _ (s.cell_lt k)).trans (s.data k)
      · show p.time < st'.nt
        have := s.time_lt
        omega
      · intro k
        show p.cells k < st'.nd
        have := s.cell_lt k
        omega
      · have := s.root
        simp
        omega
    · rw [hl] at hw
      simp at hw
      subst hw
      refine ⟨e1, e2, e3, e4, e5, e6, e7, e8, ?_, ?_, ?_⟩
      · show p.time < st'.nt
        omega
      · intro k
        show p.cells k < st'.nd
        rw [oc]
        omega
      · simp
        rcases hroot with ⟨h1, -⟩ | ⟨h1, -⟩ <;> omega
  · intro i p w hp hw k
    rw [bo] at hp ⊢
    rcases old i p hp with ⟨hi, hp⟩ | ⟨rfl, rfl⟩
    · rw [List.getElem?_append_left (by omega)] at hw
      obtain ⟨r, hr, e⟩ := h.root i p w hp hw k
      have := (h.same i p w hp hw).root
      exact ⟨r, by rw [List.getElem?_append_left (by omega)]; exact hr, e⟩
    · rw [hl] at hw
      simp at hw
      subst hw
      rcases hroot with ⟨h1, h2⟩ | ⟨h1, h2⟩
      · exact ⟨p, by rw [h1, ← hl]; simp, h2 k⟩
      · obtain ⟨r, hr, e⟩ := h2 k
        exact ⟨r, by rw [List.getElem?_append_left (by omega)]; exact hr, e⟩
  · intro i j p q hp hq e
    rw [bo] at hp hq
    rcases old i p hp with ⟨hi, hp'⟩ | ⟨rfl, rfl⟩ <;> rcases old j q hq with ⟨hj, hq'⟩ | ⟨rfl, rfl⟩
    · exact h.times i j p q hp' hq' e
    · have := (fresh i p hp').1; omega
    · have := (fresh j q hq').1; omega
    · rfl
  · intro i j p q k l hp hq e
    rw [bo] at hp hq
    rcases old i p hp with ⟨hi, hp'⟩ | ⟨rfl, rfl⟩ <;> rcases old j q hq with ⟨hj, hq'⟩ | ⟨rfl, rfl⟩
    · exact h.cells i j p q k l hp' hq' e
    · have := (fresh i p hp').2 k
      rw [e, oc] at this
      omega
    · have := (fresh j q hq').2 l
      rw [← e, oc] at this
      omega
    · rw [oc, oc] at e
      exact ⟨rfl, Fin.ext (by omega)⟩

theorem assign1_length {old new x : List ℝ} (h : assign1 old new = .ok x) : x.length = old.length := by
  unfold assign1 at h
  split at h
  · cases h; assumption
  · split at h
    · cases h; simp
    · cases h

theorem assign2_shape {old new x : Arr2} (h : assign2 old new = .ok x) : x.rows = old.rows ∧ x.cols = old.cols := by
  unfold assign2 at h
  split at h
  · cases h; exact ⟨rfl, rfl⟩
  · cases h

theorem assign2_fit {old new : Arr2} (h1 : new.rows = old.rows) (h2 : new.cols = old.cols) : assign2 old new = .ok new := by
  unfold assign2
  rw [if_pos ⟨Or.inl h1, Or.inl h2⟩]
  simp only [h1, h2, if_true]
  rw [← h1, ← h2]

/-- The memory and the new object in the course of `interpolate` and `time_translation`: nothing has changed but the cells of the new object. -/
structure Mid (st st' : State) (new : Obj) (n : Nat) (ellMax : Int) : Prop where
  objs : st'.objs = st.objs
  times : ∀ a < st.nt, st'.times a = st.times a
  data : ∀ a < st.nd, st'.data a = st.data a
  nt : st'.nt = st.nt + 1
  nd : st'.nd = st.nd + 6
  time : new.time = st.nt
  cells : ∀ k : Fin 6, new.cells k = st.nd + k
  rows : ∀ k, (st'.data (new.cells k)).rows = n
  cols : ∀ k, (st'.data (new.cells k)).cols = size ellMax

theorem construct_mid (st : State) (time : List ℝ) (ellMax : Int) (trunc : Trunc) (frameType : Int) :
    Mid st (construct st time ellMax trunc frameType).1 (construct st time ellMax trunc frameType).2 time.length ellMax := by
  refine ⟨rfl, ?_, ?_, rfl, rfl, rfl, fun _ => rfl, ?_, ?_⟩
  · intro a ha
    simp only [construct, upd]
    rw [if_neg (by omega)]
  · intro a ha
    simp only [construct]
    rw [if_neg (by omega)]
  · intro k
    simp only [construct]
    rw [if_pos (by omega)]
    rfl
  · intro k
    simp only [construct]
    rw [if_pos (by omega)]
    rfl

/-- One series is filled in. -/
theorem Mid.fill {st st' : State} {new : Obj} {n : Nat} {ellMax : Int} (h : Mid st st' new n ellMax) (k : Fin 6) (x : Arr2) (hr : x.rows = n) (hc : x.cols = size ellMax) :
    setSeries st' new k x = .ok { st' with data := upd st'.data (new.cells k) x } ∧ Mid st { st' with data := upd st'.data (new.cells k) x } new n ellMax := by
  refine ⟨?_, h.objs, h.times, ?_, h.nt, h.nd, h.time, h.cells, ?_, ?_⟩
  · unfold setSeries
    rw [assign2_fit (by rw [hr, h.rows k]) (by rw [hc, h.cols k])]
    rfl
  · intro a ha
    have : a ≠ new.cells k := by rw [h.cells k]; omega
    simp only [upd, if_neg this]
    exact h.data a ha
  · intro l
    simp only [upd]
    split
    · exact hr
    · exact h.rows l
  · intro l
    simp only [upd]
    split
    · exact hc
    · exact h.cols l

/-- All six series are filled in. -/
theorem Mid.fill_all {st st' : State} {new : Obj} {n : Nat} {ellMax : Int} (h : Mid st st' new n ellMax) (x : Fin 6 → Arr2) (hr : ∀ k, (x k).rows = n) (hc : ∀ k, (x k).cols = size ellMax)
    (g : State → Fin 6 → Py State) (hg : ∀ s k, Mid st s new n ellMax → s.times = st'.times → g s k = setSeries s new k (x k)) :
    ∃ s, [5, 4, 3, 2, 1, 0].foldlM g st' = .ok s ∧ Mid st s new n ellMax ∧ s.times = st'.times ∧ ∀ k, s.data (new.cells k) = x k := by
  have key : ∀ (L : List (Fin 6)) (s : State), Mid st s new n ellMax → s.times = st'.times → ∃ s', L.foldlM g s = .ok s' ∧ Mid st s' new n ellMax ∧ s'.times = st'.times ∧
      ∀ k, (k ∈ L ∨ s.data (new.cells k) = x k) → s'.data (new.cells k) = x k := by
    intro L
    induction L with
    | nil => exact fun s hs ht => ⟨s, rfl, hs, ht, fun k hk => hk.resolve_left (by simp)⟩
    | cons l L ih =>
      intro s hs ht
      obtain ⟨f1, f2⟩ := hs.fill l (x l) (hr l) (hc l)
      obtain ⟨s', h1, h2, h3, h4⟩ := ih _ f2 ht
      refine ⟨s', ?_, h2, h3, ?_⟩
      · rw [List.foldlM_cons, hg s l hs ht, f1, ok_bind, h1]
      · intro k hk
        refine h4 k ?_
        by_cases hkl : k = l
        · right
          simp [upd, hkl]
        · rcases hk with hk | hk
          · left
            rcases List.mem_cons.mp hk with rfl | hk
            · exact absurd rfl hkl
            · exact hk
          · right
            have : new.cells k ≠ new.cells l := by
              rw [h.cells, h.cells]
              intro e
              exact hkl (Fin.ext (by omega))
            simp only [upd, if_neg this]
            exact hk
  obtain ⟨s, h1, h2, h3, h4⟩ := key [5, 4, 3, 2, 1, 0] st' h rfl
  refine ⟨s, h1, h2, h3, fun k => h4 k (Or.inl ?_)⟩
  fin_cases k <;> simp

/-- The first error in a list of results. -/
def firstErr {α : Type} (spl : Fin 6 → Py α) (L : List (Fin 6)) : Option PyErr := L.findSome? fun k => match spl k with
  | .error e => some e
  | .ok _ => none

theorem Mid.fill_error {st st' : State} {new : Obj} {n : Nat} {ellMax : Int} (h : Mid st st' new n ellMax) (spl : Fin 6 → Py (Nat → Nat → ℂ))
    (g : State → Fin 6 → Py State) (hg : ∀ s k, Mid st s new n ellMax → s.times = st'.times → g s k = (spl k >>= fun f => setSeries s new k ⟨n, size ellMax, f⟩)) (L : List (Fin 6)) (e : PyErr)
    (he : firstErr spl L = some e) : L.foldlM g st' = .error e := by
  have key : ∀ (L : List (Fin 6)) (s : State), Mid st s new n ellMax → s.times = st'.times → firstErr spl L = some e → L.foldlM g s = .error e := by
    intro L
    induction L with
    | nil => intro s _ _ he; cases he
    | cons l L ih =>
      intro s hs ht he
      rw [List.foldlM_cons, hg s l hs ht]
      rcases hl : spl l with e' | f
      · simp only [firstErr, List.findSome?_cons, hl] at he
        cases he
        rfl
      · obtain ⟨f1, f2⟩ := hs.fill l ⟨n, size ellMax, f⟩ rfl rfl
        simp only [firstErr, List.findSome?_cons, hl] at he
        rw [ok_bind, f1, ok_bind]
        exact ih _ f2 ht he
  exact key L st' h rfl he

theorem splines_cases (ext : Ext) (t : List ℝ) (v : VObj) (newTimes : List ℝ) :
    (∃ e, firstErr (fun k => ext.spline t (v.data k) newTimes) [5, 4, 3, 2, 1, 0] = some e ∧ splines ext t v newTimes = .error e) ∨
    (∃ f, splines ext t v newTimes = .ok f ∧ ∀ k, ext.spline t (v.data k) newTimes = .ok (f k)) := by
  unfold splines firstErr
  rcases h5 : ext.spline t (v.data 5) newTimes with e | f5
  · exact Or.inl ⟨e, by simp [h5], rfl⟩
  rcases h4 : ext.spline t (v.data 4) newTimes with e | f4
  · exact Or.inl ⟨e, by simp [h5, h4], rfl⟩
  rcases h3 : ext.spline t (v.data 3) newTimes with e | f3
  · exact Or.inl ⟨e, by simp [h5, h4, h3], rfl⟩
  rcases h2 : ext.spline t (v.data 2) newTimes with e | f2
  · exact Or.inl ⟨e, by simp [h5, h4, h3, h2], rfl⟩
  rcases h1 : ext.spline t (v.data 1) newTimes with e | f1
  · exact Or.inl ⟨e, by simp [h5, h4, h3, h2, h1], rfl⟩
  rcases h0 : ext.spline t (v.data 0) newTimes with e | f0
  · exact Or.inl ⟨e, by simp [h5, h4, h3, h2, h1, h0], rfl⟩
  refine Or.inr ⟨_, rfl, fun k => ?_⟩
  fin_cases k
  · exact h0
  · exact h1
  · exact h2
  · exact h3
  · exact h4
  · exact h5

/-- C72: one statement. -/
theorem exec_step (ext : Ext) (inertial : Int) (st : State) (vs : List VObj) (h : Holds st vs) (op : Op) :
    match exec ext inertial st op, step ext inertial vs op with
    | .ok st', .ok vs' => Holds st' vs'
    | .error e, .error e' => e = e'
    | _, _ => False := by
  cases op with
  | new time ellMax trunc frameType =>
    simp only [exec, step]
    have m := construct_mid st time ellMax trunc frameType
    refine h.append _ _ _ m.objs m.times m.data m.nt m.nd m.time m.cells ?_ ?_ rfl rfl rfl rfl (fun _ => rfl) (fun _ => rfl) (Or.inl ⟨rfl, fun _ => rfl⟩)
    · simp [construct, upd]
    · intro k
      simp only [construct]
      rw [if_pos (by omega)]
      rfl
  | setTime i new =>
    rcases h.obj i with ⟨o, v, ho, hv, e⟩ | ⟨hv, e⟩
    · have s := h.same i o v ho hv
      simp only [exec, step, hv, e, ok_bind, setTime, s.time]
      rcases ha : assign1 v.time new with e | x
      · rfl
      · exact h.putTime ho hv x (assign1_length ha)
    · simp only [exec, step, hv, e]
      rfl
  | shiftTime i t0 =>
    rcases h.obj i with ⟨o, v, ho, hv, e⟩ | ⟨hv, e⟩
    · have s := h.same i o v ho hv
      simp only [exec, step, hv, e, ok_bind, shiftTime, s.time, pure_eq_ok]
      exact h.putTime ho hv _ (by simp)
    · simp only [exec, step, hv, e]
      rfl
  | setSeries i k new =>
    rcases h.obj i with ⟨o, v, ho, hv, e⟩ | ⟨hv, e⟩
    · have s := h.same i o v ho hv
      simp only [exec, step, hv, e, ok_bind, setSeries, s.data]
      rcases ha : assign2 (v.data k) new with e | x
      · rfl
      · exact h.putData ho hv k x (assign2_shape ha).1 (assign2_shape ha).2
    · simp only [exec, step, hv, e]
      rfl
  | setSeriesTime i k new =>
    rcases h.obj i with ⟨o, v, ho, hv, e⟩ | ⟨hv, e⟩
    · obtain ⟨r, w, hr, hw, e1, e2, e3⟩ := h.stime ho hv k
      simp only [exec, step, hv, e, ok_bind, setSeriesTime, e2, e3]
      rcases ha : assign1 w.time new with e | x
      · rfl
      · simp only [ok_bind, pure_eq_ok, e1]
        exact h.putTime hr hw x (assign1_length ha)
    · simp only [exec, step, hv, e]
      rfl
  | copy i =>
    rcases h.obj i with ⟨o, v, ho, hv, e⟩ | ⟨hv, e⟩
    · have s := h.same i o v ho hv
      simp only [exec, step, hv, e, ok_bind, pure_eq_ok]
      refine h.append _ _ _ rfl ?_ ?_ rfl rfl rfl (fun _ => rfl) ?_ ?_ s.ellMax s.trunc s.frameType s.frame s.rows s.cols (Or.inr ⟨s.root, h.root i o v ho hv⟩)
      · intro a ha
        simp only [upd]
        rw [if_neg (by omega)]
      · intro a ha
        simp only
        rw [dif_neg (by omega)]
      · simp [upd, s.time]
      · intro k
        simp only
        rw [dif_pos (by omega)]
        rw [← s.data k]
        congr 2
        exact Fin.ext (by simp)
    · simp only [exec, step, hv, e]
      rfl
  | interpolate i newTimes =>
    rcases h.obj i with ⟨o, v, ho, hv, e⟩ | ⟨hv, e⟩
    · have s := h.same i o v ho hv
      obtain ⟨r, w, -, -, -, -, e3⟩ := h.stime ho hv 0
      have m := construct_mid st newTimes o.ellMax .sum inertial
      have hg : ∀ s' k, Mid st s' (construct st newTimes o.ellMax .sum inertial).2 newTimes.length o.ellMax → s'.times = (construct st newTimes o.ellMax .sum inertial).1.times →
          interpolateSeries ext o { (construct st newTimes o.ellMax .sum inertial).2 with frameType := o.frameType } newTimes s' k =
          (ext.spline (timeOf vs v.root) (v.data k) newTimes >>= fun f => setSeries s' (construct st newTimes o.ellMax .sum inertial).2 k ⟨newTimes.length, size o.ellMax, f⟩) := by
        intro s' k hm ht
        obtain ⟨r', w', hr', hw', a1, a2, a3⟩ := h.stime ho hv k
        have lt := (h.same _ _ _ hr' hw').time_lt
        unfold interpolateSeries
        rw [hm.times _ (by rw [a1]; exact lt), hm.data _ (s.cell_lt k), s.data k, a2, ← a3, s.cols k, ← s.ellMax]
        rfl
      have ex : exec ext inertial st (.interpolate i newTimes) = (do
          let st' ← [5, 4, 3, 2, 1, 0].foldlM (interpolateSeries ext o { (construct st newTimes o.ellMax .sum inertial).2 with frameType := o.frameType } newTimes) (construct st newTimes o.ellMax .sum inertial).1
          pure (named (st', if o.frame.length = (st'.times o.time).length then { { (construct st newTimes o.ellMax .sum inertial).2 with frameType := o.frameType } with frame := ext.squad o.frame (st'.times o.time) newTimes }
            else { (construct st newTimes o.ellMax .sum inertial).2 with frameType := o.frameType }))) := by
        simp only [exec, e, ok_bind, interpolate]
        rcases [5, 4, 3, 2, 1, 0].foldlM (interpolateSeries ext o { (construct st newTimes o.ellMax .sum inertial).2 with frameType := o.frameType } newTimes) (construct st newTimes o.ellMax .sum inertial).1 with e | st'
        · rfl
        · rfl
      rw [ex]
      simp only [step, hv]
      rcases splines_cases ext (timeOf vs v.root) v newTimes with ⟨e', he', hs'⟩ | ⟨f, hf, hfk⟩
      · rw [m.fill_error _ _ hg _ e' he', hs']
        rfl
      · obtain ⟨s6, f1, f2, f3, f4⟩ := m.fill_all (fun k => ⟨newTimes.length, size o.ellMax, f k⟩) (fun _ => rfl) (fun _ => rfl)
          (interpolateSeries ext o { (construct st newTimes o.ellMax .sum inertial).2 with frameType := o.frameType } newTimes) (fun s' k hm ht => (hg s' k hm ht).trans (by rw [hfk k, ok_bind]))
        rw [f1, ok_bind, hf, ok_bind]
        have t6 : s6.times o.time = v.time := by rw [f2.times _ s.time_lt, s.time]
        simp only [t6, s.frame, pure_eq_ok]
        by_cases hc : v.frame.length = v.time.length
        · simp only [if_pos hc]
          refine h.append _ _ _ f2.objs f2.times f2.data f2.nt f2.nd f2.time f2.cells ?_ ?_ s.ellMax rfl s.frameType rfl (fun _ => rfl) (fun _ => rfl) (Or.inl ⟨rfl, fun _ => rfl⟩)
          · show s6.times st.nt = newTimes
            rw [f3]
            simp [construct, upd]
          · intro k
            rw [← s.ellMax]
            exact f4 k
        · simp only [if_neg hc]
          refine h.append _ _ _ f2.objs f2.times f2.data f2.nt f2.nd f2.time f2.cells ?_ ?_ s.ellMax rfl s.frameType rfl (fun _ => rfl) (fun _ => rfl) (Or.inl ⟨rfl, fun _ => rfl⟩)
          · show s6.times st.nt = newTimes
            rw [f3]
            simp [construct, upd]
          · intro k
            rw [← s.ellMax]
            exact f4 k
    · simp only [exec, step, hv, e]
      rfl
  | translate i t0 =>
    rcases h.obj i with ⟨o, v, ho, hv, e⟩ | ⟨hv, e⟩
    · have s := h.same i o v ho hv
      have m := construct_mid st (st.times o.time) o.ellMax .sum inertial
      obtain ⟨s6, f1, f2, f3, f4⟩ := m.fill_all v.data (fun k => by rw [s.rows k, s.time]) (fun k => by rw [s.cols k, s.ellMax])
        (fun st' k => setSeries st' (construct st (st.times o.time) o.ellMax .sum inertial).2 k (st'.data (o.cells k))) (fun s' k hm ht => by rw [hm.data _ (s.cell_lt k), s.data k])
      have ex : exec ext inertial st (.translate i t0) = .ok (named (shiftTime s6 (construct st (st.times o.time) o.ellMax .sum inertial).2 t0, (construct st (st.times o.time) o.ellMax .sum inertial).2)) := by
        simp only [exec, e, ok_bind, translate]
        rw [f1]
        rfl
      rw [ex]
      simp only [step, hv]
      refine h.append _ _ _ f2.objs ?_ f2.data f2.nt f2.nd f2.time f2.cells ?_ ?_ s.ellMax rfl rfl rfl (fun k => by rw [s.rows k]; simp) s.cols (Or.inl ⟨rfl, fun _ => rfl⟩)
      · intro a ha
        simp only [shiftTime, upd]
        rw [if_neg (by show a ≠ st.nt; omega)]
        exact f2.times a ha
      · simp only [shiftTime, upd, if_true]
        rw [f3, ← s.time]
        simp [construct, upd]
      · exact f4
    · simp only [exec, step, hv, e]
      rfl

/-- C72: after any program, whatever statements of it raise, what can be observed of each object is what the specification says. -/
theorem heap_refines (ext : Ext) (inertial : Int) (L : List Op) : ∀ (st : State) (vs : List VObj), Holds st vs → Holds (run ext inertial st L) (steps ext inertial vs L) := by
  induction L with
  | nil => exact fun st vs h => h
  | cons op L ih =>
    intro st vs h
    have := exec_step ext inertial st vs h op
    simp only [run, steps]
    rcases h1 : exec ext inertial st op with e | st' <;> rcases h2 : step ext inertial vs op with e' | vs' <;> rw [h1, h2] at this
    · exact ih st vs h
    · exact this.elim
    · exact this.elim
    · exact ih st' vs' this

theorem start_holds : Holds start [] := ⟨rfl, fun i o v h => by simp [start] at h, fun i o v h => by simp [start] at h, fun i j o p h => by simp [start] at h, fun i j o p k l h => by simp [start] at h⟩

/-- C72: what can be observed after a program that begins with no objects. -/
theorem observed (ext : Ext) (inertial : Int) (L : List Op) :
    (run ext inertial start L).objs.map (look (run ext inertial start L)) = (steps ext inertial [] L).map (view (steps ext inertial [] L)) := by
  have h := heap_refines ext inertial L start [] start_holds
  refine List.ext_getElem (by simp [h.length]) fun i h1 h2 => ?_
  simp only [List.getElem_map]
  simp only [List.length_map] at h1 h2
  have ho := List.getElem?_eq_getElem h1
  have hv := List.getElem?_eq_getElem h2
  have s := h.same i _ _ ho hv
  unfold look view
  congr 1
  · exact s.time
  · exact funext s.data
  · funext k
    obtain ⟨r, w, -, -, -, e1, e2⟩ := h.stime ho hv k
    rw [e1, e2]
  · exact s.ellMax
  · exact s.trunc
  · exact s.frameType
  · exact s.frame

/-! ## What follows for programs -/

/-- What can be observed of all objects after a program. -/
def objects (ext : Ext) (inertial : Int) (L : List Op) : List View := (run ext inertial start L).objs.map (look (run ext inertial start L))

theorem objects_eq (ext : Ext) (inertial : Int) (L : List Op) : objects ext inertial L = (steps ext inertial [] L).map (view (steps ext inertial [] L)) := observed ext inertial L

theorem steps_append (ext : Ext) (inertial : Int) (L : List Op) (op : Op) : ∀ vs, steps ext inertial vs (L ++ [op]) = match step ext inertial (steps ext inertial vs L) op with
    | .ok vs' => vs'
    | .error _ => steps ext inertial vs L := by
  induction L with
  | nil =>
    intro vs
    simp only [List.nil_append, steps]
    rcases step ext inertial vs op with e | vs' <;> rfl
  | cons o L ih =>
    intro vs
    simp only [List.cons_append, steps]
    rcases step ext inertial vs o with e | vs'
    · exact ih vs
    · exact ih vs'

/-- Each object has its own times. -/
def Rooted (vs : List VObj) : Prop := ∀ (i : Nat) (v : VObj), vs[i]? = some v → v.root = i

theorem rooted_modify {vs : List VObj} (h : Rooted vs) (i : Nat) (f : VObj → VObj) (hf : ∀ v, (f v).root = v.root) : Rooted (vs.modify i f) := by
  intro j v hv
  rw [List.getElem?_modify] at hv
  rcases hu : vs[j]? with _ | u
  · rw [hu] at hv
    split at hv <;> cases hv
  rw [hu] at hv
  have := h j u hu
  split at hv <;> simp at hv <;> subst hv
  · rw [hf, this]
  · exact this

theorem rooted_append {vs : List VObj} (h : Rooted vs) (v : VObj) (hv : v.root = vs.length) : Rooted (vs ++ [v]) := by
  intro j w hw
  rcases lt_trichotomy j vs.length with hj | hj | hj
  · rw [List.getElem?_append_left hj] at hw
    exact h j w hw
  · subst hj
    simp at hw
    subst hw
    exact hv
  · rw [List.getElem?_eq_none (by simp; omega)] at hw
    cases hw

def Op.isCopy : Op → Bool
  | .copy _ => true
  | _ => false

theorem rooted_step (ext : Ext) (inertial : Int) (vs vs' : List VObj) (op : Op) (hop : Op.isCopy op = false) (h : Rooted vs) (hs : step ext inertial vs op = .ok vs') : Rooted vs' := by
  cases op with
  | copy i => cases hop
  | new time ellMax trunc frameType =>
    cases hs
    exact rooted_append h _ rfl
  | setTime i new =>
    simp only [step] at hs
    split at hs
    · cases hs
    · rename_i v hv
      rcases ha : assign1 v.time new with e | x
      · rw [ha] at hs; cases hs
      · rw [ha] at hs
        cases hs
        exact rooted_modify h _ _ fun _ => rfl
  | shiftTime i t0 =>
    simp only [step] at hs
    split at hs
    · cases hs
    · cases hs
      exact rooted_modify h _ _ fun _ => rfl
  | setSeries i k new =>
    simp only [step] at hs
    split at hs
    · cases hs
    · rename_i v hv
      rcases ha : assign2 (v.data k) new with e | x
      · rw [ha] at hs; cases hs
      · rw [ha] at hs
        cases hs
        exact rooted_modify h _ _ fun _ => rfl
  | setSeriesTime i k new =>
    simp only [step] at hs
    split at hs
    · cases hs
    · rename_i v hv
      rcases ha : assign1 (timeOf vs v.root) new with e | x
      · rw [ha] at hs; cases hs
      · rw [ha] at hs
        cases hs
        exact rooted_modify h _ _ fun _ => rfl
  | interpolate i newTimes =>
    simp only [step] at hs
    split at hs
    · cases hs
    · rename_i v hv
      rcases ha : splines ext (timeOf vs v.root) v newTimes with e | f
      · rw [ha] at hs; cases hs
      · rw [ha] at hs
        cases hs
        exact rooted_append h _ rfl
  | translate i t0 =>
    simp only [step] at hs
    split at hs
    · cases hs
    · cases hs
      exact rooted_append h _ rfl

/-- C72: as long as a program makes no copies, the six series of each object always have the times of the object, whatever is done to the times of this and other objects. -/
theorem times_agree_partial (ext : Ext) (inertial : Int) (L : List Op) (hL : ∀ op ∈ L, Op.isCopy op = false) : ∀ w ∈ objects ext inertial L, ∀ k, w.stimes k = w.time := by
  have key : ∀ (L : List Op) (vs : List VObj), Rooted vs → (∀ op ∈ L, Op.isCopy op = false) → Rooted (steps ext inertial vs L) := by
    intro L
    induction L with
    | nil => exact fun vs h _ => h
    | cons op L ih =>
      intro vs h hL
      simp only [steps]
      rcases hs : step ext inertial vs op with e | vs'
      · exact ih vs h fun o ho => hL o (by simp [ho])
      · exact ih vs' (rooted_step ext inertial vs vs' op (hL op (by simp)) h hs) fun o ho => hL o (by simp [ho])
  have hr := key L [] (fun i v h => by simp at h) hL
  intro w hw k
  rw [objects_eq] at hw
  obtain ⟨v, hv, rfl⟩ := List.mem_map.mp hw
  obtain ⟨i, hi⟩ := List.mem_iff_getElem?.mp hv
  have := hr i v hi
  simp only [view, timeOf, this, hi]

/-- C72: giving new data to a series changes this series of this object and nothing else, or it raises and changes nothing; whatever copies there are. -/
theorem set_series_local (ext : Ext) (inertial : Int) (L : List Op) (i : Nat) (k : Fin 6) (x : Arr2) (w : View) (hw : (objects ext inertial L)[i]? = some w) :
    objects ext inertial (L ++ [.setSeries i k x]) = match assign2 (w.data k) x with
      | .ok y => (objects ext inertial L).modify i fun w => { w with data := fun l => if l = k then y else w.data l }
      | .error _ => objects ext inertial L := by
  rw [objects_eq, steps_append]
  rw [objects_eq] at hw ⊢
  generalize steps ext inertial [] L = vs at *
  rw [List.getElem?_map] at hw
  rcases hv : vs[i]? with _ | v
  · rw [hv] at hw; cases hw
  rw [hv] at hw
  simp only [Option.map_some, Option.some.injEq] at hw
  have hd : w.data k = v.data k := by rw [← hw]; rfl
  simp only [step, hv, hd]
  rcases assign2 (v.data k) x with e | y
  · rfl
  · simp only [ok_bind, pure_eq_ok]
    have ht : ∀ j, timeOf (vs.modify i fun v => { v with data := fun l => if l = k then y else v.data l }) j = timeOf vs j := by
      intro j
      unfold timeOf
      rw [List.getElem?_modify]
      rcases vs[j]? with _ | u
      · rfl
      · by_cases hij : i = j
        · simp only [hij, if_true]; rfl
        · simp only [hij, if_false]; rfl
    refine List.ext_getElem? fun j => ?_
    rw [List.getElem?_map, List.getElem?_modify, List.getElem?_modify, List.getElem?_map]
    rcases vs[j]? with _ | u
    · rfl
    · by_cases hij : i = j
      · simp only [hij, if_true]
        rw [hij] at ht
        simp only [Option.map_eq_map, Option.map_some, view, ht]
      · simp only [hij, if_false]
        simp only [Option.map_eq_map, Option.map_some, view, ht]

/-- C72: a copy looks like the original at first, and making it changes nothing. -/
theorem copy_looks_same (ext : Ext) (inertial : Int) (L : List Op) (i : Nat) (w : View) (hw : (objects ext inertial L)[i]? = some w) :
    objects ext inertial (L ++ [.copy i]) = objects ext inertial L ++ [w] := by
  rw [objects_eq, steps_append]
  have hR := heap_refines ext inertial L start [] start_holds
  rw [objects_eq] at hw ⊢
  have hroot : ∀ v ∈ steps ext inertial [] L, v.root < (steps ext inertial [] L).length := by
    intro v hv
    obtain ⟨j, hj⟩ := List.mem_iff_getElem?.mp hv
    rcases hR.obj j with ⟨o, v', ho, hv', -⟩ | ⟨hn, -⟩
    · rw [hj] at hv'
      cases hv'
      exact (hR.same j o v ho hj).root
    · rw [hj] at hn; cases hn
  clear hR
  generalize steps ext inertial [] L = vs at *
  rw [List.getElem?_map] at hw
  rcases hv : vs[i]? with _ | v
  · rw [hv] at hw; cases hw
  rw [hv] at hw
  simp only [Option.map_some, Option.some.injEq] at hw
  simp only [step, hv, List.map_append, List.map_cons, List.map_nil]
  have ht : ∀ u ∈ vs, view (vs ++ [v]) u = view vs u := by
    intro u hu
    simp only [view, timeOf, List.getElem?_append_left (hroot u hu)]
  rw [ht v (List.mem_of_getElem? hv), hw]
  congr 1
  exact List.map_congr_left ht

/-! ## The times of copies -/

/-- The full claim is false: the times of the series of a copy do not change with the times of the copy (as the docstring of `time_translation` says). -/
theorem copy_series_keep_times (ext : Ext) (inertial : Int) (t : List ℝ) (ell : Int) (t0 : ℝ) (L : List View) (hL : objects ext inertial [.new t ell .sum inertial, .copy 0, .shiftTime 1 t0] = L) :
    ∃ w, L[1]? = some w ∧ w.time = t.map (· - t0) ∧ ∀ k, w.stimes k = t := by
  rw [objects_eq] at hL
  subst hL
  exact ⟨_, rfl, rfl, fun _ => rfl⟩

/-- ... and they change with the times of the original, of which the copy should be independent. -/
theorem original_changes_copy (ext : Ext) (inertial : Int) (t : List ℝ) (ell : Int) (t0 : ℝ) (L : List View) (hL : objects ext inertial [.new t ell .sum inertial, .copy 0, .shiftTime 0 t0] = L) :
    ∃ w, L[1]? = some w ∧ w.time = t ∧ ∀ k, w.stimes k = t.map (· - t0) := by
  rw [objects_eq] at hL
  subst hL
  exact ⟨_, rfl, rfl, fun _ => rfl⟩

/-- ... and the original changes if the times of a series of the copy are set. -/
theorem copy_changes_original (ext : Ext) (inertial : Int) (t x : List ℝ) (hx : x.length = t.length) (ell : Int) (L : List View)
    (hL : objects ext inertial [.new t ell .sum inertial, .copy 0, .setSeriesTime 1 5 x] = L) : ∃ w, L[0]? = some w ∧ w.time = x := by
  rw [objects_eq] at hL
  have ha : assign1 t x = .ok x := by simp [assign1, hx]
  have hs : steps ext inertial [] [.new t ell .sum inertial, .copy 0, .setSeriesTime 1 5 x] =
      match assign1 t x >>= fun y => pure (Spec.AbdHeap.putTime (steps ext inertial [] [.new t ell .sum inertial, .copy 0]) 0 y) with
      | .ok vs' => vs'
      | .error _ => steps ext inertial [] [.new t ell .sum inertial, .copy 0] := rfl
  rw [hs, ha] at hL
  subst hL
  exact ⟨_, rfl, rfl⟩

/-- As a consequence, a copy whose times are shifted is interpolated at the wrong times: the result is that for the times before the shift. -/
theorem shifted_copy_interpolates_wrong (ext : Ext) (inertial : Int) (t s : List ℝ) (ell : Int) (t0 : ℝ) (f : Nat → Nat → ℂ) (hf : ext.spline t ⟨t.length, size ell, fun _ _ => 0⟩ s = .ok f)
    (L : List View) (hL : objects ext inertial [.new t ell .sum inertial, .copy 0, .shiftTime 1 t0, .interpolate 1 s] = L) :
    ∃ w, L[2]? = some w ∧ w.time = s ∧ ∀ k, w.data k = ⟨s.length, size ell, f⟩ := by
  rw [objects_eq] at hL
  have h1 : steps ext inertial [] [.new t ell .sum inertial, .copy 0, .shiftTime 1 t0, .interpolate 1 s] =
      match splines ext t { time := t.map (· - t0), data := fun _ => ⟨t.length, size ell, fun _ _ => 0⟩, root := 0, ellMax := ell, trunc := .sum, frameType := inertial, frame := [] } s >>= fun g =>
        pure (steps ext inertial [] [.new t ell .sum inertial, .copy 0, .shiftTime 1 t0] ++
          [{ time := s, data := fun k => ⟨s.length, size ell, g k⟩, root := 2, ellMax := ell, trunc := .sum, frameType := inertial,
             frame := if ([] : List (Quaternion ℝ)).length = (t.map (· - t0)).length then ext.squad [] (t.map (· - t0)) s else [] }]) with
      | .ok vs' => vs'
      | .error _ => steps ext inertial [] [.new t ell .sum inertial, .copy 0, .shiftTime 1 t0] := rfl
  have h2 : splines ext t { time := t.map (· - t0), data := fun _ => ⟨t.length, size ell, fun _ _ => 0⟩, root := 0, ellMax := ell, trunc := .sum, frameType := inertial, frame := [] } s = .ok ![f, f, f, f, f, f] := by
    simp only [splines, hf, ok_bind, pure_eq_ok]
  rw [h1, h2] at hL
  subst hL
  refine ⟨_, rfl, rfl, fun k => ?_⟩
  fin_cases k <;> rfl

/-- C72: `time_translation` gives an object with the same data and all times shifted, also those of the series; it does not change the given object.  The frame type, the frame and
the truncator are not those of the given object. -/
theorem translate_spec (ext : Ext) (inertial : Int) (L : List Op) (i : Nat) (t0 : ℝ) (w : View) (hw : (objects ext inertial L)[i]? = some w) :
    objects ext inertial (L ++ [.translate i t0]) = objects ext inertial L ++
      [{ time := w.time.map (· - t0), data := w.data, stimes := fun _ => w.time.map (· - t0), ellMax := w.ellMax, trunc := .sum, frameType := inertial, frame := [] }] := by
  rw [objects_eq, steps_append]
  have hR := heap_refines ext inertial L start [] start_holds
  rw [objects_eq] at hw ⊢
  have hroot : ∀ v ∈ steps ext inertial [] L, v.root < (steps ext inertial [] L).length := by
    intro v hv
    obtain ⟨j, hj⟩ := List.mem_iff_getElem?.mp hv
    rcases hR.obj j with ⟨o, v', ho, hv', -⟩ | ⟨hn, -⟩
    · rw [hj] at hv'
      cases hv'
      exact (hR.same j o v ho hj).root
    · rw [hj] at hn; cases hn
  clear hR
  generalize steps ext inertial [] L = vs at *
  rw [List.getElem?_map] at hw
  rcases hv : vs[i]? with _ | v
  · rw [hv] at hw; cases hw
  rw [hv] at hw
  simp only [Option.map_some, Option.some.injEq] at hw
  subst hw
  simp only [step, hv, List.map_append, List.map_cons, List.map_nil]
  congr 1
  · refine List.map_congr_left fun u hu => ?_
    simp only [view, timeOf, List.getElem?_append_left (hroot u hu)]
  · simp [view, timeOf]

/-- Interpolation does not keep the truncator. -/
theorem interpolate_loses_truncator (ext : Ext) (inertial : Int) (t s : List ℝ) (ell : Int) (f : Nat → Nat → ℂ) (hf : ext.spline t ⟨t.length, size ell, fun _ _ => 0⟩ s = .ok f)
    (L : List View) (hL : objects ext inertial [.new t ell .max inertial, .interpolate 0 s] = L) : (∃ w, L[0]? = some w ∧ w.trunc = .max) ∧ ∃ w, L[1]? = some w ∧ w.trunc = .sum := by
  rw [objects_eq] at hL
  have h1 : steps ext inertial [] [.new t ell .max inertial, .interpolate 0 s] =
      match splines ext t { time := t, data := fun _ => ⟨t.length, size ell, fun _ _ => 0⟩, root := 0, ellMax := ell, trunc := .max, frameType := inertial, frame := [] } s >>= fun g =>
        pure (steps ext inertial [] [.new t ell .max inertial] ++
          [{ time := s, data := fun k => ⟨s.length, size ell, g k⟩, root := 1, ellMax := ell, trunc := .sum, frameType := inertial,
             frame := if ([] : List (Quaternion ℝ)).length = t.length then ext.squad [] t s else [] }]) with
      | .ok vs' => vs'
      | .error _ => steps ext inertial [] [.new t ell .max inertial] := rfl
  have h2 : splines ext t { time := t, data := fun _ => ⟨t.length, size ell, fun _ _ => 0⟩, root := 0, ellMax := ell, trunc := .max, frameType := inertial, frame := [] } s = .ok ![f, f, f, f, f, f] := by
    simp only [splines, hf, ok_bind, pure_eq_ok]
  rw [h1, h2] at hL
  subst hL
  exact ⟨⟨_, rfl, rfl⟩, ⟨_, rfl, rfl⟩⟩

/-- A spline that exists: the hypotheses can be met. -/
example : ∃ ext : Ext, ext.spline [0, 1] ⟨2, size 2, fun _ _ => 0⟩ [1 / 2] = .ok fun _ _ => 0 := ⟨⟨fun _ _ _ => .ok fun _ _ => 0, fun _ _ _ => []⟩, rfl⟩

/-- A program without copies with two objects. -/
example (ext : Ext) : ∀ w ∈ objects ext 0 [.new [0, 1, 2] 2 .max 0, .translate 0 1, .setTime 1 [5, 6, 7], .setSeriesTime 0 5 [1]], ∀ k, w.stimes k = w.time :=
  times_agree_partial ext 0 _ (by intro op hop; simp at hop; rcases hop with rfl | rfl | rfl | rfl <;> rfl)

/-- The rule of numpy for assigning an array to an array of another shape: each axis has the same length, or length 1. -/
def Broadcasts (old new : Arr2) : Prop := (new.rows = old.rows ∨ new.rows = 1) ∧ (new.cols = old.cols ∨ new.cols = 1)

/-- C72: new data of the same shape are taken as they are; a single row or column is repeated; all else is a `ValueError`.  The shape of a series never changes. -/
theorem new_data (old new : Arr2) :
    (new.rows = old.rows → new.cols = old.cols → assign2 old new = .ok new) ∧
    (Broadcasts old new → ∃ y, assign2 old new = .ok y ∧ y.rows = old.rows ∧ y.cols = old.cols ∧
      ∀ i < old.rows, ∀ j < old.cols, y.get i j = new.get (if new.rows = 1 then 0 else i) (if new.cols = 1 then 0 else j)) ∧
    (¬ Broadcasts old new → assign2 old new = .error .valueError) := by
  refine ⟨?_, ?_, ?_⟩
  · intro hr hc
    obtain ⟨r, c, g⟩ := new
    simp only at hr hc
    subst hr hc
    simp [assign2]
  · intro h
    refine ⟨_, if_pos h, rfl, rfl, ?_⟩
    intro i hi j hj
    obtain ⟨hr, hc⟩ := h
    show new.get (if new.rows = old.rows then i else 0) (if new.cols = old.cols then j else 0) = _
    congr 1
    · split <;> split <;> omega
    · split <;> split <;> omega
  · intro h
    exact if_neg h

/-- C72: new times: as many as before, or one for all. -/
theorem new_times (old new : List ℝ) :
    (new.length = old.length → assign1 old new = .ok new) ∧ (∀ x, new = [x] → assign1 old new = .ok (List.replicate old.length x)) ∧
    (new.length ≠ old.length → new.length ≠ 1 → assign1 old new = .error .valueError) := by
  refine ⟨fun h => if_pos h, ?_, ?_⟩
  · rintro x rfl
    unfold assign1
    split
    · rename_i h
      rw [← h]; rfl
    · show Except.ok (old.map fun _ => x) = _
      rw [List.map_const']
  · intro h h1
    unfold assign1
    rw [if_neg h]
    match new, h1 with
    | [], _ => rfl
    | _ :: _ :: _, _ => rfl

example : Broadcasts ⟨3, 4, fun _ _ => 0⟩ ⟨1, 4, fun _ j => j⟩ ∧ ¬ Broadcasts ⟨3, 4, fun _ _ => 0⟩ ⟨1, 2, fun _ j => j⟩ := by
  simp [Broadcasts]

end Verif.Props.AbdHeap
