import Verif.Lemmas.SuperrestLoop

/-!
# Properties of the frame-fixing iterations (C41, C56)
-/

namespace Verif.Props.SuperrestLoop

open Verif Verif.Modes Verif.SuperrestLoop Verif.Spec.SuperrestLoop Verif.Lemmas.SuperrestLoop

/-! ## The loops of the solvers -/

theorem kept_step {S B : Type} (out : S → B) (b0 : B) (l : List (S × Err)) (b : B) (h : Kept out b0 l b) (s : S) (e : Err) :
    Kept out b0 (l ++ [(s, e)]) (if e.lt (pyMin (.inf :: l.map Prod.snd)) then out s else b) := by
  have em : (l ++ [(s, e)]).map Prod.snd = l.map Prod.snd ++ [e] := by simp
  unfold Kept
  rw [em]
  split_ifs with hc
  · left
    refine ⟨l.length, s, e, by simp, rfl, ?_⟩
    have := firstBest_new _ _ hc
    rwa [List.length_map] at this
  · rcases h with ⟨i, s', e', h1, h2, h3⟩ | ⟨h1, h2⟩
    · left
      have hil : i < l.length := (List.getElem?_eq_some_iff.mp h1).1
      exact ⟨i, s', e', by rw [List.getElem?_append_left hil, h1], h2, firstBest_old _ _ _ h3 hc⟩
    · right
      exact ⟨h1, noneFinite_old _ _ h2 hc⟩

theorem iterate_spec {S B : Type} (step : Nat → S → Py (S × Err)) (out : S → B) (N : Nat) (tol : Err) (s0 : S) (b0 : B) (fuel : Nat) (st : St S B) (l : List (S × Err))
    (hf : fuel + l.length = N) (hi : st.itr = l.length) (he : st.errs = .inf :: l.map Prod.snd) (ht : Trials step s0 l st.cur) (hk : Kept out b0 l st.best)
    (hd : ∀ x ∈ l.dropLast, ¬ x.2.lt tol) (hl : ∀ x, l.getLast? = some x → st.err = x.2) (h0 : l = [] → st.err = .inf) :
    (∀ st', iterate step out N tol fuel st = .ok st' → ∃ l', Trials step s0 l' st'.cur ∧ st'.errs = .inf :: l'.map Prod.snd ∧ Kept out b0 l' st'.best ∧ Ended (fun x : S × Err => x.2.lt tol) l' N) ∧
    (∀ err, iterate step out N tol fuel st = .error err → ∃ l' s, Trials step s0 l' s ∧ l'.length < N ∧ (∀ x ∈ l', ¬ x.2.lt tol) ∧ step l'.length s = .error err) := by
  induction fuel generalizing st l with
  | zero =>
    refine ⟨fun st' h => ?_, fun err h => by cases h⟩
    cases h
    exact ⟨l, ht, he, hk, by omega, hd, Or.inl (by omega)⟩
  | succ fuel ih =>
    by_cases hc : st.itr < N ∧ ¬ st.err.lt tol
    · have hall : ∀ x ∈ l, ¬ x.2.lt tol := by
        intro x hx
        rcases List.eq_nil_or_concat l with rfl | ⟨l', y, rfl⟩
        · cases hx
        · rw [List.concat_eq_append] at *
          rw [List.dropLast_concat] at hd
          rcases List.mem_append.mp hx with hx | hx
          · exact hd x hx
          · rw [List.mem_singleton] at hx
            subst hx
            rw [← hl x (by simp)]
            exact hc.2
      have e0 : iterate step out N tol (fuel + 1) st = (do
          let p ← step st.itr st.cur
          iterate step out N tol fuel { itr := st.itr + 1, err := p.2, errs := st.errs ++ [p.2], cur := p.1, best := if p.2.lt (pyMin st.errs) then out p.1 else st.best }) := if_pos hc
      rw [e0]
      rcases e1 : step st.itr st.cur with err | ⟨s, e⟩
      · rw [error_bind]
        refine ⟨fun st' h => (by cases h), fun err' h => ?_⟩
        cases h
        exact ⟨l, st.cur, ht, by omega, hall, by rw [← hi]; exact e1⟩
      · rw [ok_bind]
        refine ih _ (l ++ [(s, e)]) (by simp; omega) (by simp [hi]) (by simp [he]) ?_ ?_ ?_ ?_ (fun h => by simp at h)
        · exact Trials.snoc l st.cur s e ht (by rw [← hi]; exact e1)
        · show Kept out b0 (l ++ [(s, e)]) (if e.lt (pyMin st.errs) then out s else st.best)
          rw [he]
          exact kept_step out b0 l st.best hk s e
        · rw [List.dropLast_concat]
          exact hall
        · intro x hx
          rw [List.getLast?_concat] at hx
          cases hx
          rfl
    · have e0 : iterate step out N tol (fuel + 1) st = .ok st := if_neg hc
      rw [e0]
      refine ⟨fun st' h => ?_, fun err h => by cases h⟩
      cases h
      refine ⟨l, ht, he, hk, by omega, hd, Or.inr ?_⟩
      have hm : st.err.lt tol := by
        by_contra hn
        exact hc ⟨by omega, hn⟩
      rcases List.eq_nil_or_concat l with rfl | ⟨l', y, rfl⟩
      · exfalso
        rw [h0 rfl] at hm
        exact not_inf_lt _ hm
      · rw [List.concat_eq_append] at *
        have hy : st.err = y.2 := hl y (by simp)
        rw [hy] at hm
        exact ⟨y, by simp, hm⟩

/-- C41: an iteration that returns has made trials one after the other, recorded all their errors, kept the first of the best ones, and ended when it should. -/
theorem run_best {S B : Type} (step : Nat → S → Py (S × Err)) (out : S → B) (N : Int) (tol : Err) (s0 : S) (b0 b : B) (errs : List Err) (h : run step out N tol s0 b0 = .ok (b, errs)) :
    ∃ l s, Trials step s0 l s ∧ errs = .inf :: l.map Prod.snd ∧ Kept out b0 l b ∧ Ended (fun x : S × Err => x.2.lt tol) l N.toNat := by
  have H := (iterate_spec step out N.toNat tol s0 b0 N.toNat { itr := 0, err := .inf, errs := [.inf], cur := s0, best := b0 } [] (by simp) rfl rfl Trials.nil
    (Or.inr ⟨rfl, fun _ h => by cases h⟩) (fun _ h => by cases h) (fun _ h => by cases h) (fun _ => rfl)).1
  unfold run at h
  rcases e1 : iterate step out N.toNat tol N.toNat { itr := 0, err := .inf, errs := [.inf], cur := s0, best := b0 } with e | st
  · rw [e1] at h
    cases h
  · rw [e1] at h
    cases h
    obtain ⟨l, h1, h2, h3, h4⟩ := H st e1
    exact ⟨l, st.cur, h1, h2, h3, h4⟩

/-- An iteration raises only what one of its steps raises, at a step that it had to make. -/
theorem run_error {S B : Type} (step : Nat → S → Py (S × Err)) (out : S → B) (N : Int) (tol : Err) (s0 : S) (b0 : B) (err : PyErr) (h : run step out N tol s0 b0 = .error err) :
    ∃ l s, Trials step s0 l s ∧ l.length < N.toNat ∧ (∀ x ∈ l, ¬ x.2.lt tol) ∧ step l.length s = .error err := by
  have H := (iterate_spec step out N.toNat tol s0 b0 N.toNat { itr := 0, err := .inf, errs := [.inf], cur := s0, best := b0 } [] (by simp) rfl rfl Trials.nil
    (Or.inr ⟨rfl, fun _ h => by cases h⟩) (fun _ h => by cases h) (fun _ h => by cases h) (fun _ => rfl)).2
  unfold run at h
  rcases e1 : iterate step out N.toNat tol N.toNat { itr := 0, err := .inf, errs := [.inf], cur := s0, best := b0 } with e | st
  · rw [e1] at h
    cases h
    exact H _ e1
  · rw [e1] at h
    cases h

/-- What a trial of the solvers for the center of mass and the rotation has done. -/
theorem pass_spec {A G : Type} (env : Env A G) (clean : Tr → Tr) (abd : A) (n : Nat) (s s' : Tr × Option G) (e : Err) (h : pass env clean abd n s = .ok (s', e)) :
    ∃ g new T a g', present env abd n s.2 = .ok g ∧ env.fromCharge g = .ok new ∧ env.compose new s.1 = .ok T ∧ env.transform abd (clean T) = .ok a ∧ env.charge a = .ok g' ∧
      s' = (clean T, some g') ∧ e = env.error a g' := by
  unfold pass at h
  rcases e0 : present env abd n s.2 with x | g0
  · rw [e0] at h; cases h
  rw [e0, ok_bind] at h
  rcases e1 : env.fromCharge g0 with x | new
  · rw [e1] at h; cases h
  rw [e1, ok_bind] at h
  rcases e2 : env.compose new s.1 with x | T
  · rw [e2] at h; cases h
  rw [e2, ok_bind] at h
  rcases e3 : env.transform abd (clean T) with x | a
  · rw [e3] at h; cases h
  rw [e3, ok_bind] at h
  rcases e4 : env.charge a with x | g
  · rw [e4] at h; cases h
  rw [e4, ok_bind] at h
  cases h
  exact ⟨g0, new, T, a, g, rfl, e1, e2, e3, e4, rfl, rfl⟩

/-- The trials without the charges that are carried along. -/
def plain {G : Type} (l : List ((Tr × Option G) × Err)) : List (Tr × Err) := l.map fun x => (x.1.1, x.2)

theorem trials_solving {A G : Type} (env : Env A G) (clean : Tr → Tr) (part : Tr → Tr → Prop) (hp : ∀ T, part T (clean T)) (abd : A) (s : Tr × Option G) (l : List ((Tr × Option G) × Err))
    (h : Trials (pass env clean abd) (Tr.one, none) l s) : ∃ a, Solving env part abd (plain l) s.1 a ∧ (l = [] → a = abd) ∧ (l ≠ [] → ∃ g, s.2 = some g ∧ env.charge a = .ok g) := by
  induction h with
  | nil => exact ⟨abd, Solving.nil, fun _ => rfl, fun h => absurd rfl h⟩
  | snoc l s s' e _ hs ih =>
    obtain ⟨a, h1, h2, h3⟩ := ih
    obtain ⟨g, new, T, a', g', p1, p2, p3, p4, p5, rfl, rfl⟩ := pass_spec env clean abd l.length s s' e hs
    have hc : env.charge a = .ok g := by
      rcases List.eq_nil_or_concat l with rfl | ⟨l', y, rfl⟩
      · rw [h2 rfl]
        exact p1
      · obtain ⟨g1, q1, q2⟩ := h3 (by simp)
        rw [q1] at p1
        have : present env abd (l'.concat y).length (some g1) = .ok g1 := if_neg (by simp)
        rw [this] at p1
        cases p1
        exact q2
    refine ⟨a', ?_, fun h => by simp at h, fun _ => ⟨g', rfl, p5⟩⟩
    have e : plain (l ++ [((clean T, some g'), env.error a' g')]) = plain l ++ [(clean T, env.error a' g')] := by simp [plain]
    rw [e]
    exact Solving.snoc (plain l) s.1 new T (clean T) a a' g g' h1 hc p2 p3 (hp T) p4 p5

theorem solver_best {A G : Type} (env : Env A G) (clean : Tr → Tr) (part : Tr → Tr → Prop) (hp : ∀ T, part T (clean T)) (abd : A) (N : Int) (tol : Err) (T : Tr) (errs : List Err)
    (h : run (pass env clean abd) Prod.fst N tol (Tr.one, none) Tr.one = .ok (T, errs)) :
    ∃ l T' a', Solving env part abd l T' a' ∧ errs = .inf :: l.map Prod.snd ∧ Kept id Tr.one l T ∧ Ended (fun x : Tr × Err => x.2.lt tol) l N.toNat := by
  obtain ⟨l, s, h1, rfl, h3, h4⟩ := run_best _ _ _ _ _ _ _ _ h
  obtain ⟨a, g1, -, -⟩ := trials_solving env clean part hp abd s l h1
  have em : (plain l).map Prod.snd = l.map Prod.snd := by simp [plain, Function.comp_def]
  refine ⟨plain l, s.1, a, g1, by rw [em], ?_, ?_, ?_, ?_⟩
  · unfold Kept
    rw [em]
    rcases h3 with ⟨i, s', e', hi, hb, hf⟩ | h3
    · left
      exact ⟨i, s'.1, e', by unfold plain; rw [List.getElem?_map, hi]; rfl, hb, hf⟩
    · exact Or.inr h3
  · simpa [plain] using h4.1
  · intro x hx
    unfold plain at hx
    rw [← List.map_dropLast] at hx
    obtain ⟨y, hy, rfl⟩ := List.mem_map.mp hx
    exact h4.2.1 y hy
  · rcases h4.2.2 with h | ⟨y, hy, hm⟩
    · left
      simpa [plain] using h
    · right
      exact ⟨(y.1.1, y.2), by unfold plain; rw [List.getLast?_map, hy]; rfl, hm⟩

theorem cleanCom_part (T : Tr) : ComPart T (cleanCom T) := by
  refine ⟨rfl, rfl, fun ell m h0 h1 h2 => ?_⟩
  show (if 4 ≤ lmIndex ell m 0 then 0 else T.super (lmIndex ell m 0)) = _
  by_cases h : ell ≤ 1
  · rw [if_pos h, if_neg]
    rcases (show ell = 0 ∨ ell = 1 by omega) with rfl | rfl <;> unfold lmIndex <;> omega
  · rw [if_neg h, if_pos]
    unfold lmIndex
    nlinarith

/-- C41 for the center of mass: the solver makes trials as specified, records their errors, returns the first of the best ones, or the identity if no error was finite, and ends when it should. -/
theorem com_best {A G : Type} (env : Env A G) (abd : A) (N : Int) (tol : Err) (T : Tr) (errs : List Err) (h : com env abd N tol = .ok (T, errs)) :
    ∃ l T' a', Solving env ComPart abd l T' a' ∧ errs = .inf :: l.map Prod.snd ∧ Kept id Tr.one l T ∧ Ended (fun x : Tr × Err => x.2.lt tol) l N.toNat :=
  solver_best env cleanCom ComPart cleanCom_part abd N tol T errs h

/-- C41 for the rotation. -/
theorem rotation_best {A G : Type} (env : Env A G) (abd : A) (N : Int) (tol : Err) (T : Tr) (errs : List Err) (h : rotation env abd N tol = .ok (T, errs)) :
    ∃ l T' a', Solving env RotationPart abd l T' a' ∧ errs = .inf :: l.map Prod.snd ∧ Kept id Tr.one l T ∧ Ended (fun x : Tr × Err => x.2.lt tol) l N.toNat :=
  solver_best env cleanRotation RotationPart (fun _ => ⟨rfl, rfl, fun _ => rfl⟩) abd N tol T errs h

theorem solving_part {A G : Type} (env : Env A G) (part : Tr → Tr → Prop) (abd : A) (l : List (Tr × Err)) (T : Tr) (a : A) (h : Solving env part abd l T a) : ∀ x ∈ l, ∃ T1, part T1 x.1 := by
  induction h with
  | nil => intro x hx; cases hx
  | snoc l T new T1 T2 a a' g g' _ _ _ _ hp _ _ ih =>
    intro x hx
    rcases List.mem_append.mp hx with hx | hx
    · exact ih x hx
    · rw [List.mem_singleton] at hx
      subst hx
      exact ⟨T1, hp⟩

theorem kept_part {A G : Type} (env : Env A G) (part : Tr → Tr → Prop) (abd : A) (l : List (Tr × Err)) (T' T : Tr) (a : A) (h : Solving env part abd l T' a) (hk : Kept id Tr.one l T) :
    (∃ T1, part T1 T) ∨ T = Tr.one := by
  rcases hk with ⟨i, s, e, hi, rfl, -⟩ | ⟨h, -⟩
  · exact Or.inl (solving_part env part abd l T' a h _ (List.mem_of_getElem? hi))
  · exact Or.inr h

/-- C56: the solver for the center of mass returns a boost and a translation: no rotation, no modes of the supertranslation with `ell >= 2`. -/
theorem com_only {A G : Type} (env : Env A G) (abd : A) (N : Int) (tol : Err) (T : Tr) (errs : List Err) (h : com env abd N tol = .ok (T, errs)) :
    T.rotation = 1 ∧ ∀ ell m, 2 ≤ ell → -ell ≤ m → m ≤ ell → T.super (lmIndex ell m 0) = 0 := by
  obtain ⟨l, T', a', h1, -, h2, -⟩ := com_best env abd N tol T errs h
  rcases kept_part env ComPart abd l T' T a' h1 h2 with ⟨T1, p1, -, p2⟩ | rfl
  · refine ⟨p1, fun ell m q1 q2 q3 => ?_⟩
    rw [p2 ell m (by omega) q2 q3, if_neg (by omega)]
  · exact ⟨rfl, fun _ _ _ _ _ => rfl⟩

/-- C56: the solver for the rotation returns a rotation: no boost, no supertranslation. -/
theorem rotation_only {A G : Type} (env : Env A G) (abd : A) (N : Int) (tol : Err) (T : Tr) (errs : List Err) (h : rotation env abd N tol = .ok (T, errs)) :
    T.boost = 0 ∧ ∀ i, T.super i = 0 := by
  obtain ⟨l, T', a', h1, -, h2, -⟩ := rotation_best env abd N tol T errs h
  rcases kept_part env RotationPart abd l T' T a' h1 h2 with ⟨T1, -, p1, p2⟩ | rfl
  · exact ⟨p1, p2⟩
  · exact ⟨rfl, fun _ => rfl⟩

/-- C41 and C56 for the supertranslation: no rotation, no boost, no modes with `ell <= 1`; the other modes are those of the best trial. -/
theorem supertranslation_best_only {S Grid : Type} (step : Nat → S → Py (S × Err)) (alpha : S → Grid) (modes : Grid → Row ℂ) (zero : Grid) (s0 : S) (N : Int) (tol : Err) (T : Tr) (errs : List Err)
    (h : supertranslation step alpha modes zero s0 N tol = .ok (T, errs)) :
    T.rotation = 1 ∧ T.boost = 0 ∧ (∀ ell m, 0 ≤ ell → ell ≤ 1 → -ell ≤ m → m ≤ ell → T.super (lmIndex ell m 0) = 0) ∧
    ∃ l s b, Trials step s0 l s ∧ errs = .inf :: l.map Prod.snd ∧ Kept alpha zero l b ∧ Ended (fun x : S × Err => x.2.lt tol) l N.toNat ∧
      ∀ ell m, 2 ≤ ell → -ell ≤ m → T.super (lmIndex ell m 0) = modes b (lmIndex ell m 0) := by
  unfold supertranslation at h
  rcases e1 : run step alpha N tol s0 zero with e | ⟨b, es⟩
  · rw [e1] at h; cases h
  · rw [e1] at h
    cases h
    obtain ⟨l, s, h1, h2, h3, h4⟩ := run_best _ _ _ _ _ _ _ _ e1
    refine ⟨rfl, rfl, fun ell m a b c d => if_pos ?_, l, s, b, h1, h2, h3, h4, fun ell m a b => if_neg ?_⟩
    · rcases (show ell = 0 ∨ ell = 1 by omega) with rfl | rfl <;> unfold lmIndex <;> constructor <;> omega
    · unfold lmIndex
      rintro ⟨-, h⟩
      nlinarith

/-- With a limit of 0 the solvers return the identity. -/
theorem no_iterations {S B : Type} (step : Nat → S → Py (S × Err)) (out : S → B) (N : Int) (hN : N ≤ 0) (tol : Err) (s0 : S) (b0 : B) : run step out N tol s0 b0 = .ok (b0, [.inf]) := by
  unfold run
  rw [show N.toNat = 0 by omega]
  rfl

/-- The hypotheses can be met: errors 3, nan, 1, 2 with limit 4 and tolerance 1/2.  The third trial is kept. -/
example : ∃ errs, run (fun n (_ : Nat) => .ok (n, [Err.fin 3, .nan, .fin 1, .fin 2].getD n .nan)) id 4 (.fin (1 / 2)) 0 100 = .ok (2, errs) := by
  refine ⟨[.inf, .fin 3, .nan, .fin 1, .fin 2], ?_⟩
  have e4 : Int.toNat 4 = 4 := rfl
  unfold run
  rw [e4]
  norm_num [iterate, pyMin, Err.lt, pure, Except.pure, bind, Except.bind]

/-! ## The outer loop -/

variable {A B : Type}

/-- One name of `order` that the loop knows. -/
theorem inner_ok (o : Outer A B) (target : Bool) (interp : A) (v v' : Inner A B) (s : Step) (hs : s ≠ .other) (ht : s = .timePhase → target = true) (h : inner o target interp v s = .ok v') :
    (s ≠ .timePhase ∧ v'.rel = v.rel ∧ ∃ T, o.solve s v.abd = .ok T ∧ o.compose T v.bms = .ok v'.bms ∧ o.transform interp v'.bms = .ok v'.abd) ∨
    (s = .timePhase ∧ ∃ e T, o.align v.abd = .ok (e, T) ∧ v'.rel = .num e ∧ o.compose T v.bms = .ok v'.bms ∧ o.transform interp v'.bms = .ok v'.abd) := by
  have key : ∀ T r, find o target v s = .ok (some T, r) → v'.rel = r ∧ o.compose T v.bms = .ok v'.bms ∧ o.transform interp v'.bms = .ok v'.abd := by
    intro T r hf
    unfold inner at h
    rw [hf, ok_bind] at h
    rcases e1 : o.compose T v.bms with x | b
    · simp only [e1] at h; cases h
    simp only [e1, ok_bind] at h
    rcases e2 : o.transform interp b with x | a
    · rw [e2] at h; cases h
    rw [e2, ok_bind] at h
    cases h
    exact ⟨rfl, rfl, e2⟩
  by_cases hp : s = .timePhase
  · right
    subst hp
    have ef : find o target v .timePhase = (do let (e, T) ← o.align v.abd; pure (some T, .num e)) := if_pos (ht rfl)
    rcases e1 : o.align v.abd with x | ⟨e, T⟩
    · rw [e1] at ef
      unfold inner at h
      rw [ef] at h
      cases h
    · rw [e1] at ef
      obtain ⟨h1, h2, h3⟩ := key T (.num e) ef
      exact ⟨rfl, e, T, rfl, h1, h2, h3⟩
  · left
    have ef : find o target v s = (do let T ← o.solve s v.abd; pure (some T, v.rel)) := by
      cases s <;> first | rfl | exact absurd rfl hs | exact absurd rfl hp
    rcases e1 : o.solve s v.abd with x | T
    · rw [e1] at ef
      unfold inner at h
      rw [ef] at h
      cases h
    · rw [e1] at ef
      obtain ⟨h1, h2, h3⟩ := key T v.rel ef
      exact ⟨hp, h1, T, rfl, h2, h3⟩

/-- The error of the last alignment, if one was made. -/
def alignment (r0 : Rel) (al : Option Err) : Rel :=
  match al with
  | some e => .num e
  | none => r0

theorem chain_nil (o : Outer A B) (interp : A) (x y : B × A × Option Err) (h : Chain o interp [] x y) : x = y := by
  cases h
  rfl

theorem fold_chain (o : Outer A B) (target : Bool) (interp : A) (order : List Step) (hk : Known target order) (r0 : Rel) (v v' : Inner A B) (al : Option Err) (hr : v.rel = alignment r0 al)
    (h : order.foldlM (inner o target interp) v = .ok v') :
    ∃ al', Chain o interp order (v.bms, v.abd, al) (v'.bms, v'.abd, al') ∧ v'.rel = alignment r0 al' ∧ (order.getLast? = some .timePhase → al'.isSome = true) := by
  induction order generalizing v al with
  | nil =>
    cases h
    exact ⟨al, Chain.nil _, hr, fun h => by cases h⟩
  | cons s rest ih =>
    rw [List.foldlM_cons] at h
    rcases e1 : inner o target interp v s with x | v1
    · rw [e1] at h; cases h
    rw [e1, ok_bind] at h
    have hk' : Known target rest := fun s' hs' => hk s' (List.mem_cons_of_mem _ hs')
    obtain ⟨k1, k2⟩ := hk s (by simp)
    have last : ∀ al', (s = .timePhase → rest = [] → al'.isSome = true) → (rest.getLast? = some .timePhase → al'.isSome = true) → ((s :: rest).getLast? = some .timePhase → (al' : Option Err).isSome = true) := by
      intro al' p1 p2 p3
      cases rest with
      | nil =>
        simp at p3
        exact p1 p3 rfl
      | cons y ys =>
        rw [List.getLast?_cons_cons] at p3
        exact p2 p3
    rcases inner_ok o target interp v v1 s k1 k2 e1 with ⟨hs, hrel, T, t1, t2, t3⟩ | ⟨rfl, e, T, t1, hrel, t2, t3⟩
    · obtain ⟨al', c1, c2, c3⟩ := ih hk' v1 al (hrel.trans hr) h
      refine ⟨al', Chain.solve s rest _ _ T _ _ _ _ ?_ t1 t2 t3 c1, c2, last al' (fun h => absurd h hs) c3⟩
      cases s <;> simp_all
    · obtain ⟨al', c1, c2, c3⟩ := ih hk' v1 (some e) hrel h
      refine ⟨al', Chain.align rest _ _ T _ _ _ e _ t1 t2 t3 c1, c2, last al' (fun _ hn => ?_) c3⟩
      subst hn
      have := chain_nil o interp _ _ c1
      rw [← (Prod.mk.inj (Prod.mk.inj this).2).2]
      rfl

/-- The error that is recorded. -/
theorem relAfter_measured (o : Outer A B) (target : Bool) (order : List Step) (r0 : Rel) (v : Inner A B) (al : Option Err) (hr : v.rel = alignment r0 al)
    (hl : order.getLast? = some .timePhase → al.isSome = true) (r : Rel) (h : relAfter o target order v = .ok r) : Measured o target order v.abd al r := by
  have tup : (do let (a, b, c) ← o.errors v.abd; pure (Rel.tuple a b c) : Py Rel) = .ok r → ∃ x y z, o.errors v.abd = .ok (x, y, z) ∧ r = .tuple x y z := by
    intro h
    rcases e1 : o.errors v.abd with x | ⟨x, y, z⟩
    · rw [e1] at h; cases h
    · rw [e1] at h
      cases h
      exact ⟨x, y, z, rfl, rfl⟩
  unfold Measured
  unfold relAfter at h
  cases target with
  | false =>
    rw [if_neg (by simp)]
    exact tup h
  | true =>
    rcases e1 : order.getLast? with _ | s
    · rw [e1] at h
      cases h
    · rw [e1] at h
      cases s <;> first
        | (rw [if_neg (by simp)]; exact tup h)
        | skip
      rw [if_pos ⟨rfl, rfl⟩]
      obtain ⟨e, rfl⟩ := Option.isSome_iff_exists.mp (hl e1)
      cases h
      exact ⟨e, rfl, hr⟩

/-- What is kept by the outer loop: nothing, as long as no mean was finite. -/
def KeptOuter (l : List (B × Rel)) (best : Option B) (bestRel : Rel) : Prop :=
  (∃ (i : Nat) (T : B), l[i]? = some (T, bestRel) ∧ best = some T ∧ FirstBest (l.map fun x => mean x.2) i) ∨ (best = none ∧ NoneFinite (l.map fun x => mean x.2))

theorem keptOuter_step (l : List (B × Rel)) (best : Option B) (bestRel : Rel) (h : KeptOuter l best bestRel) (b : B) (r : Rel) (c : Prop) [Decidable c]
    (hc : c ↔ (mean r).lt (pyMin (.inf :: l.map fun x => mean x.2))) : KeptOuter (l ++ [(b, r)]) (if c then some b else best) (if c then r else bestRel) := by
  have em : (l ++ [(b, r)]).map (fun x => mean x.2) = (l.map fun x => mean x.2) ++ [mean r] := by simp
  unfold KeptOuter
  rw [em]
  by_cases h' : c
  · rw [if_pos h', if_pos h']
    left
    refine ⟨l.length, b, by simp, rfl, ?_⟩
    have := firstBest_new _ _ (hc.mp h')
    rwa [List.length_map] at this
  · rw [if_neg h', if_neg h']
    have h'' := fun q => h' (hc.mpr q)
    rcases h with ⟨i, T, h1, h2, h3⟩ | ⟨h1, h2⟩
    · left
      have hil : i < l.length := (List.getElem?_eq_some_iff.mp h1).1
      exact ⟨i, T, by rw [List.getElem?_append_left hil, h1], h2, firstBest_old _ _ _ h3 h''⟩
    · right
      exact ⟨h1, noneFinite_old _ _ h2 h''⟩

theorem outer_spec (o : Outer A B) (target : Bool) (order : List Step) (hk : Known target order) (N : Nat) (t1 t2 t3 : Err) (interp : A) (b0 : B) (a0 : A) (h0 : o.transform interp b0 = .ok a0)
    (fuel : Nat) (st : OSt A B) (l : List (B × Rel)) (a : A) (hf : fuel + l.length = N) (hi : st.itr = l.length) (hv : firstPass o interp st = .ok { st.v with abd := a })
    (hr : st.rels = .start :: l.map Prod.snd) (hp : Passes o target order interp b0 a0 l st.v.bms a) (hb : KeptOuter l st.best st.bestRel)
    (hd : ∀ x ∈ l.dropLast, ¬ Met t1 t2 t3 x.2) (hl : ∀ x, l.getLast? = some x → st.v.rel = x.2) (hn : l = [] → st.v.rel = .start) (st' : OSt A B)
    (h : outer o target order N (t1, t2, t3) interp fuel st = .ok st') :
    ∃ l' b' a', Passes o target order interp b0 a0 l' b' a' ∧ KeptOuter l' st'.best st'.bestRel ∧ Ended (fun x : B × Rel => Met t1 t2 t3 x.2) l' N := by
  induction fuel generalizing st l a with
  | zero =>
    cases h
    exact ⟨l, _, a, hp, hb, by omega, hd, Or.inl (by omega)⟩
  | succ fuel ih =>
    by_cases hc : st.itr < N ∧ ¬ converged (t1, t2, t3) st.v.rel
    · have hall : ∀ x ∈ l, ¬ Met t1 t2 t3 x.2 := by
        intro x hx
        rcases List.eq_nil_or_concat l with rfl | ⟨l', y, rfl⟩
        · cases hx
        · rw [List.concat_eq_append] at *
          rw [List.dropLast_concat] at hd
          rcases List.mem_append.mp hx with hx | hx
          · exact hd x hx
          · rw [List.mem_singleton] at hx
            subst hx
            rw [← hl x (by simp), ← met_iff]
            exact hc.2
      have e0 : outer o target order N (t1, t2, t3) interp (fuel + 1) st = (do
          let v ← firstPass o interp st
          let v ← order.foldlM (inner o target interp) v
          let rel ← relAfter o target order v
          outer o target order N (t1, t2, t3) interp fuel
            { itr := st.itr + 1, v := { v with rel := rel }, rels := st.rels ++ [rel], best := if rel.mean.lt (pyMin (st.rels.map Rel.mean)) then some v.bms else st.best,
              bestRel := if rel.mean.lt (pyMin (st.rels.map Rel.mean)) then rel else st.bestRel }) := if_pos hc
      rw [e0, hv, ok_bind] at h
      rcases e1 : order.foldlM (inner o target interp) { st.v with abd := a } with x | v1
      · rw [e1] at h; cases h
      rw [e1, ok_bind] at h
      rcases e2 : relAfter o target order v1 with x | rel
      · rw [e2] at h; cases h
      rw [e2, ok_bind] at h
      obtain ⟨al, c1, c2, c3⟩ := fold_chain o target interp order hk st.v.rel { st.v with abd := a } v1 none rfl e1
      have hm := relAfter_measured o target order st.v.rel v1 al c2 c3 rel e2
      refine ih _ (l ++ [(v1.bms, rel)]) v1.abd (by simp; omega) (by simp [hi]) ?_ (by simp [hr]) (Passes.snoc l _ _ a _ al rel hp c1 hm) ?_ ?_ ?_ (fun h => by simp at h) h
      · exact if_neg (Nat.succ_ne_zero _)
      · refine keptOuter_step l st.best st.bestRel hb v1.bms rel _ ?_
        rw [hr, mean_eq]
        have : (Rel.start :: l.map Prod.snd).map Rel.mean = .inf :: l.map fun x => mean x.2 := by
          rw [List.map_cons, List.map_map]
          congr 1
          exact List.map_congr_left fun x _ => mean_eq x.2
        rw [this]
      · rw [List.dropLast_concat]
        exact hall
      · intro x hx
        rw [List.getLast?_concat] at hx
        cases hx
        rfl
    · have e0 : outer o target order N (t1, t2, t3) interp (fuel + 1) st = .ok st := if_neg hc
      rw [e0] at h
      have hst : st = st' := Except.ok.inj h
      subst hst
      refine ⟨l, _, a, hp, hb, by omega, hd, Or.inr ?_⟩
      have hm : converged (t1, t2, t3) st.v.rel := by
        by_contra hn
        exact hc ⟨by omega, hn⟩
      rcases List.eq_nil_or_concat l with rfl | ⟨l', y, rfl⟩
      · rw [hn rfl] at hm
        exact hm.elim
      · rw [List.concat_eq_append] at *
        have hy : st.v.rel = y.2 := hl y (by simp)
        rw [hy, met_iff] at hm
        exact ⟨y, by simp, hm⟩

theorem outer_start (o : Outer A B) (target : Bool) (order : List Step) (hk : Known target order) (N : Nat) (t1 t2 t3 : Err) (interp : A) (b0 : B) (a0 : A) (h0 : o.transform interp b0 = .ok a0) (st' : OSt A B)
    (h : outer o target order N (t1, t2, t3) interp N { itr := 0, v := { new := none, bms := b0, abd := interp, rel := .start }, rels := [.start], best := none, bestRel := .start } = .ok st') :
    ∃ l b a, Passes o target order interp b0 a0 l b a ∧ KeptOuter l st'.best st'.bestRel ∧ Ended (fun x : B × Rel => Met t1 t2 t3 x.2) l N :=
  outer_spec o target order hk N t1 t2 t3 interp b0 a0 h0 N _ [] a0 (by simp) rfl (by unfold firstPass; rw [if_pos rfl, h0]; rfl) rfl Passes.nil (Or.inr ⟨rfl, fun _ h => by cases h⟩)
    (fun _ h => by cases h) (fun _ h => by cases h) (fun _ => rfl) st' h

/-- C41 for `map_to_superrest_frame`.  Partial: it is about calls that return, with known names; see `superrest_no_iterations`, `superrest_nan`, `superrest_unknown_first` and
`superrest_time_phase_never_stops` for the calls where the property fails.  If it returns, with an order of names that it knows, then it has made passes as specified, ended when it should, and returns the first of the best transformations
(by the mean of the errors) with the time translation undone, its error, and the data transformed with it. -/
theorem superrest_best_partial (o : Outer A B) (target : Bool) (order : List Step) (hk : Known target order) (N : Int) (t1 t2 t3 : Err) (abd interp : A) (b0 back : B) (a0 : A)
    (h0 : o.transform interp b0 = .ok a0) (abd' : A) (b' : B) (r : Rel) (h : superrest o target order N (t1, t2, t3) abd interp b0 back = .ok (abd', b', r)) :
    ∃ l b a i T, Passes o target order interp b0 a0 l b a ∧ Ended (fun x : B × Rel => Met t1 t2 t3 x.2) l N.toNat ∧ l[i]? = some (T, r) ∧ FirstBest (l.map fun x => mean x.2) i ∧
      o.compose back T = .ok b' ∧ o.transform abd b' = .ok abd' := by
  unfold superrest at h
  rcases e1 : outer o target order N.toNat (t1, t2, t3) interp N.toNat { itr := 0, v := { new := none, bms := b0, abd := interp, rel := .start }, rels := [.start], best := none, bestRel := .start } with x | st
  · rw [e1] at h; cases h
  rw [e1, ok_bind] at h
  obtain ⟨l, b, a, p1, p2, p3⟩ := outer_start o target order hk N.toNat t1 t2 t3 interp b0 a0 h0 st e1
  rcases p2 with ⟨i, T, q1, q2, q3⟩ | ⟨q1, -⟩
  · rw [q2] at h
    rcases e2 : o.compose back T with x | b2
    · simp only [e2] at h; cases h
    simp only [e2, ok_bind] at h
    rcases e3 : o.transform abd b2 with x | a2
    · rw [e3] at h; cases h
    rw [e3, ok_bind] at h
    cases h
    exact ⟨l, b, a, i, T, p1, p3, q1, q3, e2, e3⟩
  · rw [q1] at h
    cases h

/-- It does not return the identity if no iteration is allowed: it raises `UnboundLocalError`. -/
theorem superrest_no_iterations (o : Outer A B) (target : Bool) (order : List Step) (N : Int) (hN : N ≤ 0) (tols : Err × Err × Err) (abd interp : A) (b0 back : B) :
    superrest o target order N tols abd interp b0 back = .error .unboundLocal := by
  unfold superrest
  rw [show N.toNat = 0 by omega]
  rfl

/-- Errors that are never finite give an exception too, never a result. -/
theorem superrest_nan (o : Outer A B) (target : Bool) (order : List Step) (hk : Known target order) (hl : ¬ (target = true ∧ order.getLast? = some .timePhase)) (N : Int) (t1 t2 t3 : Err) (abd interp : A) (b0 back : B) (a0 : A)
    (h0 : o.transform interp b0 = .ok a0) (hn : ∀ a x y z, o.errors a = .ok (x, y, z) → x = .nan ∨ y = .nan ∨ z = .nan) : ∃ e, superrest o target order N (t1, t2, t3) abd interp b0 back = .error e := by
  rcases e : superrest o target order N (t1, t2, t3) abd interp b0 back with x | ⟨abd', b', r⟩
  · exact ⟨x, rfl⟩
  exfalso
  obtain ⟨l, b, a, i, T, p1, -, p3, ⟨c, f1, f2, -⟩, -⟩ := superrest_best_partial o target order hk N t1 t2 t3 abd interp b0 back a0 h0 abd' b' r e
  have key : ∀ l b a, Passes o target order interp b0 a0 l b a → ∀ x ∈ l, mean x.2 = .nan := by
    intro l b a h
    induction h with
    | nil => intro x hx; cases hx
    | snoc l b b' a a' al r _ _ hm ih =>
      intro x hx
      rcases List.mem_append.mp hx with hx | hx
      · exact ih x hx
      · rw [List.mem_singleton] at hx
        subst hx
        unfold Measured at hm
        rw [if_neg hl] at hm
        obtain ⟨x, y, z, h1, rfl⟩ := hm
        rcases hn a' x y z h1 with rfl | rfl | rfl
        · rfl
        · cases x <;> rfl
        · cases x <;> cases y <;> rfl
  rw [List.getElem?_map, p3] at f1
  cases f1
  have f2 : (mean (T, r).2).lt .inf := f2
  rw [key l b a p1 _ (List.mem_of_getElem? p3)] at f2
  exact not_nan_lt _ f2

/-- If the order ends with `time_phase` and there is a target, all allowed passes are made, whatever the errors are. -/
theorem superrest_time_phase_never_stops (o : Outer A B) (order : List Step) (hk : Known true order) (hl : order.getLast? = some .timePhase) (N : Int) (t1 t2 t3 : Err) (abd interp : A) (b0 back : B) (a0 : A)
    (h0 : o.transform interp b0 = .ok a0) (abd' : A) (b' : B) (r : Rel) (h : superrest o true order N (t1, t2, t3) abd interp b0 back = .ok (abd', b', r)) :
    ∃ l b a, Passes o true order interp b0 a0 l b a ∧ l.length = N.toNat ∧ ∃ e, r = .num e := by
  obtain ⟨l, b, a, i, T, p1, p2, p3, -⟩ := superrest_best_partial o true order hk N t1 t2 t3 abd interp b0 back a0 h0 abd' b' r h
  have key : ∀ l b a, Passes o true order interp b0 a0 l b a → ∀ x ∈ l, ∃ e, x.2 = .num e := by
    intro l b a h
    induction h with
    | nil => intro x hx; cases hx
    | snoc l b b' a a' al r _ _ hm ih =>
      intro x hx
      rcases List.mem_append.mp hx with hx | hx
      · exact ih x hx
      · rw [List.mem_singleton] at hx
        subst hx
        unfold Measured at hm
        rw [if_pos ⟨rfl, hl⟩] at hm
        obtain ⟨e, -, rfl⟩ := hm
        exact ⟨e, rfl⟩
  refine ⟨l, b, a, p1, ?_, key l b a p1 _ (List.mem_of_getElem? p3)⟩
  rcases p2.2.2 with h | ⟨x, hx, u, v, w, hm, -⟩
  · exact h
  · obtain ⟨e, he⟩ := key l b a p1 x (List.mem_of_getLast? hx)
    rw [hm] at he
    cases he

/-- A name that is not known, or `time_phase` without a target, at the first place raises `UnboundLocalError`. -/
theorem superrest_unknown_first (o : Outer A B) (target : Bool) (s : Step) (rest : List Step) (hs : s = .other ∨ (s = .timePhase ∧ target = false)) (N : Int) (hN : 0 < N) (tols : Err × Err × Err) (abd interp : A)
    (b0 back : B) (a0 : A) (h0 : o.transform interp b0 = .ok a0) : superrest o target (s :: rest) N tols abd interp b0 back = .error .unboundLocal := by
  obtain ⟨n, hn⟩ : ∃ n, N.toNat = n + 1 := ⟨N.toNat - 1, by omega⟩
  unfold superrest
  rw [hn]
  have e0 : outer o target (s :: rest) (n + 1) tols interp (n + 1) { itr := 0, v := { new := none, bms := b0, abd := interp, rel := .start }, rels := [.start], best := none, bestRel := .start } = .error .unboundLocal := by
    refine (if_pos ⟨Nat.succ_pos _, fun h => h⟩).trans ?_
    have e1 : firstPass o interp ({ itr := 0, v := { new := none, bms := b0, abd := interp, rel := .start }, rels := [.start], best := none, bestRel := .start } : OSt A B) =
        .ok { new := none, bms := b0, abd := a0, rel := .start } := by
      unfold firstPass
      rw [if_pos rfl, h0]
      rfl
    have e2 : inner o target interp { new := none, bms := b0, abd := a0, rel := .start } s = .error .unboundLocal := by
      rcases hs with rfl | ⟨rfl, rfl⟩ <;> rfl
    rw [e1, ok_bind, List.foldlM_cons, e2]
    rfl
  rw [e0]
  rfl

/-- At a later place it applies the transformation of the name before it a second time. -/
theorem superrest_unknown_repeats (o : Outer A B) (target : Bool) (interp : A) (v : Inner A B) (T b1 b2 : B) (a1 a2 : A) (p s : Step) (hp : p = .supertranslation ∨ p = .rotation ∨ p = .com)
    (hs : s = .other ∨ (s = .timePhase ∧ target = false)) (h0 : o.solve p v.abd = .ok T) (h1 : o.compose T v.bms = .ok b1) (h2 : o.transform interp b1 = .ok a1)
    (h3 : o.compose T b1 = .ok b2) (h4 : o.transform interp b2 = .ok a2) :
    [p, s].foldlM (inner o target interp) v = .ok { new := some T, bms := b2, abd := a2, rel := v.rel } := by
  have e1 : inner o target interp v p = .ok { new := some T, bms := b1, abd := a1, rel := v.rel } := by
    have ef : find o target v p = .ok (some T, v.rel) := by
      have : find o target v p = (do let T ← o.solve p v.abd; pure (some T, v.rel)) := by
        rcases hp with rfl | rfl | rfl <;> rfl
      rw [this, h0]
      rfl
    unfold inner
    rw [ef, ok_bind]
    simp only [h1, ok_bind, h2]
    rfl
  have e2 : inner o target interp { new := some T, bms := b1, abd := a1, rel := v.rel } s = .ok { new := some T, bms := b2, abd := a2, rel := v.rel } := by
    have ef : find o target { new := some T, bms := b1, abd := a1, rel := v.rel } s = .ok (some T, v.rel) := by
      rcases hs with rfl | ⟨rfl, rfl⟩ <;> rfl
    unfold inner
    rw [ef, ok_bind]
    simp only [h3, ok_bind, h4]
    rfl
  rw [List.foldlM_cons, e1, ok_bind, List.foldlM_cons, e2]
  rfl

/-- An empty order with a target raises `IndexError`. -/
theorem superrest_empty_order (o : Outer A B) (N : Int) (hN : 0 < N) (tols : Err × Err × Err) (abd interp : A) (b0 back : B) (a0 : A) (h0 : o.transform interp b0 = .ok a0) :
    superrest o true [] N tols abd interp b0 back = .error .indexError := by
  obtain ⟨n, hn⟩ : ∃ n, N.toNat = n + 1 := ⟨N.toNat - 1, by omega⟩
  unfold superrest
  rw [hn]
  have e0 : outer o true [] (n + 1) tols interp (n + 1) { itr := 0, v := { new := none, bms := b0, abd := interp, rel := .start }, rels := [.start], best := none, bestRel := .start } = .error .indexError := by
    refine (if_pos ⟨Nat.succ_pos _, fun h => h⟩).trans ?_
    have e1 : firstPass o interp ({ itr := 0, v := { new := none, bms := b0, abd := interp, rel := .start }, rels := [.start], best := none, bestRel := .start } : OSt A B) =
        .ok { new := none, bms := b0, abd := a0, rel := .start } := by
      unfold firstPass
      rw [if_pos rfl, h0]
      rfl
    rw [e1]
    rfl
  rw [e0]
  rfl

/-- A small case: transformations are numbers. -/
noncomputable def toy : Outer ℤ ℤ where
  solve := fun _ _ => .ok 1
  align := fun _ => .error .other
  compose := fun x y => .ok (x + y)
  transform := fun x y => .ok (x + y)
  errors := fun a => .ok (.fin |(a : ℝ) - 12|, .fin 0, .fin 0)

/-- The hypotheses of `superrest_best_partial` can be met: each pass adds 1, and the second of three passes is the best one. -/
example : Known false [.rotation] ∧ ∃ r, superrest toy false [.rotation] 3 (.fin 0, .fin 1, .fin 1) 0 0 10 (-10) = .ok (2, 2, r) := by
  refine ⟨fun s hs => ?_, .tuple (.fin 0) (.fin 0) (.fin 0), ?_⟩
  · rw [List.mem_singleton] at hs
    subst hs
    exact ⟨by decide, fun h => by cases h⟩
  · have e3 : Int.toNat 3 = 3 := rfl
    unfold superrest
    rw [e3]
    norm_num [toy, outer, firstPass, inner, find, relAfter, converged, pyMin, Rel.mean, Err.add, Err.third, Err.lt, pure, Except.pure, bind, Except.bind]

end Verif.Props.SuperrestLoop
