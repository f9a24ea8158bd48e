import Verif.Spec.AbdFrame
import Verif.Props.SuperrestLoop
import Verif.Props.Moreschi

/-!
# C80: mapping data to the frame of other data
-/

namespace Verif.Props.AbdFrame
open Verif
open Verif.SuperrestLoop hiding St pass present
open Verif.AbdFrame Verif.Lemmas.SuperrestLoop Verif.Spec.SuperrestLoop Verif.Spec.AbdFrame Verif.Props.SuperrestLoop

/-! ## The nearest time -/

theorem argminFrom_spec (l pre : List ℝ) (best : Nat) (v : ℝ) (h1 : pre[best]? = some v) (h2 : ∀ x ∈ pre, v ≤ x) (h3 : ∀ j x, j < best → pre[j]? = some x → v < x) :
    ∃ w, (pre ++ l)[argminFrom l pre.length best v]? = some w ∧ (∀ x ∈ pre ++ l, w ≤ x) ∧ ∀ j x, j < argminFrom l pre.length best v → (pre ++ l)[j]? = some x → w < x := by
  induction l generalizing pre best v with
  | nil => rw [List.append_nil]; exact ⟨v, h1, h2, h3⟩
  | cons x l ih =>
    have e : pre ++ x :: l = (pre ++ [x]) ++ l := by simp
    have el : (pre ++ [x]).length = pre.length + 1 := by simp
    unfold argminFrom
    rw [e]
    split
    · next hx =>
      have := ih (pre ++ [x]) pre.length x (by simp) (fun y hy => ?_) (fun j y hj hy => ?_)
      · rwa [el] at this
      · rw [List.mem_append, List.mem_singleton] at hy
        rcases hy with hy | rfl
        · exact hx.le.trans (h2 y hy)
        · exact le_rfl
      · rw [List.getElem?_append_left hj] at hy
        exact lt_of_lt_of_le hx (h2 y (List.mem_of_getElem? hy))
    · next hx =>
      have hb : best < pre.length := (List.getElem?_eq_some_iff.mp h1).1
      have := ih (pre ++ [x]) best v (by rw [List.getElem?_append_left hb, h1]) (fun y hy => ?_) (fun j y hj hy => ?_)
      · rwa [el] at this
      · rw [List.mem_append, List.mem_singleton] at hy
        rcases hy with hy | rfl
        · exact h2 y hy
        · exact not_lt.1 hx
      · rw [List.getElem?_append_left (by omega)] at hy
        exact h3 j y hj hy

/-- C80: the nearest time, and an error only if there is none. -/
theorem nearest_spec (t : List ℝ) (x : ℝ) (ht : t ≠ []) : ∃ i, nearest t x = .ok i ∧ Nearest t x i := by
  obtain ⟨u, l, rfl⟩ := List.exists_cons_of_ne_nil ht
  refine ⟨_, rfl, ?_⟩
  have := argminFrom_spec (l.map fun v => |v - x|) [|u - x|] 0 |u - x| rfl (by simp) (by simp)
  rw [List.singleton_append, List.length_singleton, ← List.map_cons (f := fun v => |v - x|)] at this
  obtain ⟨w, h1, h2, h3⟩ := this
  rw [List.getElem?_map] at h1
  rcases e : (u :: l)[argminFrom (l.map fun v => |v - x|) 1 0 |u - x|]? with _ | y
  · rw [e] at h1; simp at h1
  rw [e] at h1
  simp only [Option.map_some, Option.some.injEq] at h1
  subst h1
  refine ⟨y, e, fun v hv => h2 _ (List.mem_map.2 ⟨v, hv, rfl⟩), fun j v hj hv => h3 j _ hj ?_⟩
  rw [List.getElem?_map, hv]
  rfl

/-- C80: the function starts with the time translation that takes the time at which the energy is nearest to that of the target at `t_0` to `t_0`. -/
theorem start_spec (t energy tT eT : List ℝ) (t0 : ℝ) (h1 : energy.length = t.length) (h2 : eT.length = tT.length) (h3 : t ≠ []) (h4 : tT ≠ []) :
    ∃ i j x e, startTime t energy tT eT t0 = .ok (x - t0) ∧ Nearest tT t0 j ∧ eT[j]? = some e ∧ Nearest energy e i ∧ t[i]? = some x := by
  obtain ⟨j, e1, n1⟩ := nearest_spec tT t0 h4
  have hj : j < eT.length := by
    obtain ⟨u, hu, _⟩ := n1
    rw [h2]
    exact (List.getElem?_eq_some_iff.mp hu).1
  obtain ⟨i, e2, n2⟩ := nearest_spec energy eT[j] (fun h => h3 (List.length_eq_zero_iff.1 (by rw [← h1, h]; rfl)))
  have hi : i < t.length := by
    obtain ⟨u, hu, _⟩ := n2
    rw [← h1]
    exact (List.getElem?_eq_some_iff.mp hu).1
  refine ⟨i, j, t[i], eT[j], ?_, n1, List.getElem?_eq_getElem hj, n2, List.getElem?_eq_getElem hi⟩
  unfold startTime
  simp only [e1, ok_bind, List.getElem?_eq_getElem hj, e2, List.getElem?_eq_getElem hi]

/-- C80: the window consists of the times from the nearest to its start up to the nearest to its end. -/
theorem window_spec (t : List ℝ) (a b : ℝ) (ht : t ≠ []) : ∃ i j w, window t a b = .ok w ∧ Nearest t a i ∧ Nearest t b j ∧ ∀ k, w[k]? = if i + k ≤ j then t[i + k]? else none := by
  obtain ⟨i, e1, n1⟩ := nearest_spec t a ht
  obtain ⟨j, e2, n2⟩ := nearest_spec t b ht
  refine ⟨i, j, (t.drop i).take (j + 1 - i), ?_, n1, n2, fun k => ?_⟩
  · unfold window
    simp only [e1, e2, ok_bind]
    rfl
  · rw [List.getElem?_take, List.getElem?_drop]
    by_cases h : i + k ≤ j
    · rw [if_pos h, if_pos (by omega)]
    · rw [if_neg h, if_neg (by omega)]

/-! ## The error between two data -/

theorem norm_nonneg (row : List ℂ) : 0 ≤ AbdFrame.norm row := Real.sqrt_nonneg _

theorem norm_zero (row : List ℂ) : norm row = 0 ↔ ∀ z ∈ row, z = 0 := by
  have hn : ∀ x ∈ row.map fun z => ‖z‖ ^ 2, 0 ≤ x := by
    intro x hx
    rw [List.mem_map] at hx
    obtain ⟨z, _, rfl⟩ := hx
    positivity
  unfold AbdFrame.norm
  rw [Real.sqrt_eq_zero (List.sum_nonneg hn)]
  constructor
  · intro h z hz
    have := List.all_zero_of_le_zero_le_of_sum_eq_zero hn h (x := ‖z‖ ^ 2) (List.mem_map.2 ⟨z, hz, rfl⟩)
    simpa using this
  · intro h
    apply List.sum_eq_zero
    intro x hx
    rw [List.mem_map] at hx
    obtain ⟨z, hz, rfl⟩ := hx
    rw [h z hz]
    simp

theorem sub_zero_iff : ∀ (a b : List ℂ), a.length = b.length → ((∀ z ∈ List.zipWith (· - ·) a b, z = 0) ↔ a = b)
  | [], [], _ => by simp
  | x :: a, y :: b, h => by
    rw [List.zipWith_cons_cons, List.forall_mem_cons, sub_zero_iff a b (by simpa using h), sub_eq_zero, List.cons.injEq]
  | [], _ :: _, h => by simp at h
  | _ :: _, [], h => by simp at h

theorem diff_zero_iff (n : Nat) : ∀ (a b : Series), a.length = b.length → (∀ r ∈ a, r.length = n) → (∀ r ∈ b, r.length = n) →
    ((∀ x ∈ (List.zipWith (List.zipWith (· - ·)) a b).map norm, x = 0) ↔ a = b)
  | [], [], _, _, _ => by simp
  | x :: a, y :: b, h, h1, h2 => by
    rw [List.zipWith_cons_cons, List.map_cons, List.forall_mem_cons, diff_zero_iff n a b (by simpa using h) (fun r hr => h1 r (by simp [hr])) (fun r hr => h2 r (by simp [hr])), norm_zero,
      sub_zero_iff x y (by rw [h1 x (by simp), h2 y (by simp)]), List.cons.injEq]
  | [], _ :: _, h, _, _ => by simp at h
  | _ :: _, [], h, _, _ => by simp at h

theorem span_pos {t : List ℝ} (h : t.Pairwise (· < ·)) (h2 : 2 ≤ t.length) : 0 < t.getLastD 0 - t.headD 0 := by
  match t, h2 with
  | u :: v :: l, _ =>
    rw [List.pairwise_cons] at h
    have : (u :: v :: l).getLastD 0 ∈ v :: l := by
      rw [List.getLastD_cons, List.getLastD_eq_getLast?, List.getLast?_eq_some_getLast (List.cons_ne_nil v l)]
      exact List.getLast_mem _
    have := h.1 _ this
    simp only [List.headD_cons]
    linarith

theorem term_spec {I : List ℝ → List ℝ → ℝ} (hI : PositiveIntegral I) {t : List ℝ} (ht : t.Pairwise (· < ·)) (h2 : 2 ≤ t.length) {n : Nat} {a b : Series} (ha : Shape t n a) (hb : Shape t n b) :
    ∃ x, term I t a b = .fin x ∧ 0 ≤ x ∧ (x = 0 ↔ a = b) := by
  have hd := hI ((List.zipWith (List.zipWith (· - ·)) a b).map norm) t (by rw [List.length_map, List.length_zipWith, ha.1, hb.1, min_self]) ht h2 (fun x hx => by
    rw [List.mem_map] at hx
    obtain ⟨r, _, rfl⟩ := hx
    exact norm_nonneg r)
  have hn := hI (a.map norm) t (by rw [List.length_map, ha.1]) ht h2 (fun x hx => by
    rw [List.mem_map] at hx
    obtain ⟨r, _, rfl⟩ := hx
    exact norm_nonneg r)
  rw [diff_zero_iff n a b (by rw [ha.1, hb.1]) ha.2 hb.2] at hd
  have hden : 0 < (if I (a.map norm) t = 0 then t.getLastD 0 - t.headD 0 else I (a.map norm) t) := by
    split
    · exact span_pos ht h2
    · next h => exact lt_of_le_of_ne hn.1 (Ne.symm h)
  refine ⟨_, ?_, div_nonneg hd.1 hden.le, ?_⟩
  · unfold term Moreschi.quot
    simp only
    rw [if_neg hden.ne']
  · rw [div_eq_zero_iff, or_iff_left hden.ne', hd.2]

theorem fold_spec (f : Fin 6 → Err) (x : Fin 6 → ℝ) (h : ∀ k, f k = .fin (x k)) (l : List (Fin 6)) (y : ℝ) : l.foldl (fun (e : Err) k => e.add (f k)) (.fin y) = .fin (y + (l.map x).sum) := by
  induction l generalizing y with
  | nil => simp
  | cons k l ih =>
    rw [List.foldl_cons, h k]
    show l.foldl _ (Err.fin (y + x k)) = _
    rw [ih, List.map_cons, List.sum_cons, add_assoc]

/-- C80: the error between two data is finite and not negative, and 0 exactly for equal data. -/
theorem rel_err_zero_iff {I : List ℝ → List ℝ → ℝ} (hI : PositiveIntegral I) {t : List ℝ} (ht : t.Pairwise (· < ·)) (h2 : 2 ≤ t.length) {n : Fin 6 → Nat} {a b : Fin 6 → Series} (ha : ∀ k, Shape t (n k) (a k))
    (hb : ∀ k, Shape t (n k) (b k)) : ∃ x, relErr I t a b = .fin x ∧ 0 ≤ x ∧ (x = 0 ↔ a = b) := by
  choose x hx h0 he using fun k => term_spec hI ht h2 (ha k) (hb k)
  refine ⟨((List.finRange 6).map x).sum / 6, ?_, ?_, ?_⟩
  · unfold relErr
    rw [fold_spec _ x hx, zero_add]
    rfl
  · refine div_nonneg (List.sum_nonneg fun y hy => ?_) (by norm_num)
    rw [List.mem_map] at hy
    obtain ⟨k, _, rfl⟩ := hy
    exact h0 k
  · have hs : ((List.finRange 6).map x).sum = ∑ k, x k := by rw [← List.ofFn_eq_map, List.sum_ofFn]
    rw [div_eq_zero_iff, or_iff_left (by norm_num), hs, Finset.sum_eq_zero_iff_of_nonneg fun k _ => h0 k]
    constructor
    · intro h
      funext k
      exact (he k).1 (h k (Finset.mem_univ k))
    · rintro rfl k _
      exact (he k).2 rfl

/-- C80 is violated for a window with one time only: the error between equal data is nan. -/
theorem rel_err_single (I : List ℝ → List ℝ → ℝ) (u : ℝ) (hI : ∀ y, I y [u] = 0) (a b : Fin 6 → Series) : relErr I [u] a b = .nan := by
  have ht : ∀ k, term I [u] (a k) (b k) = .nan := fun k => by
    unfold term Moreschi.quot
    simp [hI]
  have key : ∀ l : List (Fin 6), l.foldl (fun (e : Err) k => e.add (term I [u] (a k) (b k))) .nan = .nan := by
    intro l
    induction l with
    | nil => rfl
    | cons k l ih =>
      rw [List.foldl_cons]
      exact ih
  unfold relErr
  have : List.finRange 6 = 0 :: (List.finRange 6).tail := rfl
  rw [this, List.foldl_cons, ht 0]
  show sixth (List.foldl _ Err.nan _) = _
  rw [key]
  rfl

/-! ## The loop -/

variable {A B : Type}

theorem bind_ok {α β : Type} {x : Py α} {f : α → Py β} {y : β} (h : (x >>= f) = .ok y) : ∃ a, x = .ok a ∧ f a = .ok y := by
  cases x with
  | error e => cases h
  | ok a => exact ⟨a, rfl, h⟩

/-- What is kept: nothing, as long as no error was finite. -/
def KeptBest (l : List (B × Err)) (best : Option (B × Err)) : Prop :=
  (∃ (i : Nat) (T : B) (e : Err), l[i]? = some (T, e) ∧ best = some (T, e) ∧ FirstBest (l.map Prod.snd) i) ∨ (best = none ∧ NoneFinite (l.map Prod.snd))

theorem keptBest_step (l : List (B × Err)) (best : Option (B × Err)) (h : KeptBest l best) (b : B) (e : Err) (errs : List Err) (he : errs = .inf :: l.map Prod.snd) :
    KeptBest (l ++ [(b, e)]) (if e.lt (pyMin errs) then some (b, e) else best) := by
  subst he
  have em : (l ++ [(b, e)]).map Prod.snd = l.map Prod.snd ++ [e] := by simp
  unfold KeptBest
  rw [em]
  by_cases h' : e.lt (pyMin (.inf :: l.map Prod.snd))
  · rw [if_pos h']
    left
    refine ⟨l.length, b, e, by simp, rfl, ?_⟩
    have := firstBest_new _ _ h'
    rwa [List.length_map] at this
  · rw [if_neg h']
    rcases h with ⟨i, T, e', h1, h2, h3⟩ | ⟨h1, h2⟩
    · left
      have hil : i < l.length := (List.getElem?_eq_some_iff.mp h1).1
      exact ⟨i, T, e', by rw [List.getElem?_append_left hil, h1], h2, firstBest_old _ _ _ h3 h'⟩
    · right
      exact ⟨h1, noneFinite_old _ _ h2 h'⟩

theorem pass_tries (c : Calls A B) (fix : Bool) (one : B) (interp target S : A) (T2 b0 : B) (a0 : A) (l : List (B × Err)) (st : St A B) (a : A) (hp : present c interp st = .ok a)
    (ht : Tries c fix one interp target S T2 b0 a0 l st.bms a) (b' : B) (a' : A) (e : Err) (h : pass c fix one interp target S T2 st = .ok (b', a', e)) :
    Tries c fix one interp target S T2 b0 a0 (l ++ [(b', e)]) b' a' := by
  unfold pass at h
  rw [hp, ok_bind] at h
  obtain ⟨⟨s, T1⟩, h1, k1⟩ := bind_ok h
  clear h
  obtain ⟨tp, h2, k2⟩ := bind_ok k1
  clear k1
  obtain ⟨b1, h3, k3⟩ := bind_ok k2
  clear k2
  obtain ⟨a1, h4, k4⟩ := bind_ok k3
  clear k3
  unfold firstAlign at h2
  unfold secondAlign at k4
  cases fix with
  | true =>
    simp only [if_true] at k4 h2
    obtain ⟨⟨e1, x1, y1⟩, q1, h2⟩ := bind_ok h2
    cases h2
    obtain ⟨⟨e2, x, y⟩, q2, k5⟩ := bind_ok k4
    obtain ⟨b2, q3, k6⟩ := bind_ok k5
    obtain ⟨a2, q4, k7⟩ := bind_ok k6
    cases k7
    exact Tries.aligned l _ b1 _ T1 a s a1 _ e1 _ x1 y1 x y rfl ht h1 q1 h3 h4 q2 q3 q4
  | false =>
    simp only [Bool.false_eq_true, if_false] at k4 h2
    cases h2
    obtain ⟨e', q1, k5⟩ := bind_ok k4
    cases k5
    exact Tries.unaligned l _ _ T1 a s _ _ rfl ht h1 h3 h4 q1

theorem loop_spec (c : Calls A B) (fix : Bool) (one : B) (interp target S : A) (T2 b0 : B) (a0 : A) (n : Nat) (l : List (B × Err)) (st st' : St A B) (a : A) (hp : present c interp st = .ok a)
    (ht : Tries c fix one interp target S T2 b0 a0 l st.bms a) (he : st.errs = .inf :: l.map Prod.snd) (hb : KeptBest l st.best) (h : loop c fix one interp target S T2 n st = .ok st') :
    ∃ l' b' a', Tries c fix one interp target S T2 b0 a0 l' b' a' ∧ l'.length = l.length + n ∧ KeptBest l' st'.best := by
  induction n generalizing l st a with
  | zero =>
    cases h
    exact ⟨l, _, a, ht, rfl, hb⟩
  | succ n ih =>
    unfold loop at h
    obtain ⟨⟨b1, a1, e⟩, h1, h⟩ := bind_ok h
    simp only at h
    have h2 := pass_tries c fix one interp target S T2 b0 a0 l st a hp ht b1 a1 e h1
    obtain ⟨l', b', a', q1, q2, q3⟩ := ih (l ++ [(b1, e)]) _ a1 (by unfold present; rw [if_neg (Nat.succ_ne_zero _)]) h2 (by simp [he]) (keptBest_step l st.best hb b1 e st.errs he) h
    exact ⟨l', b', a', q1, by rw [q2]; simp; omega, q3⟩

/-- C80, partial: a call that returns has made all of the passes, and returns the first of the best transformations, its error, and the data transformed with it. -/
theorem abd_best_partial (c : Calls A B) (fix : Bool) (one : B) (abd interp target : A) (start : B) (N : Int) (hN : 0 < N) (abd' : A) (T : B) (e : Err) (h : mapToAbd c fix one abd interp target start N = .ok (abd', T, e)) :
    ∃ S T2 b0 a0 l b a i, c.superrest target = .ok (S, T2) ∧ c.reorder (c.mul start one) = .ok b0 ∧ c.transform interp b0 = .ok a0 ∧ Tries c fix one interp target S T2 b0 a0 l b a ∧ l.length = N.toNat ∧
      l[i]? = some (T, e) ∧ FirstBest (l.map Prod.snd) i ∧ c.transform abd T = .ok abd' := by
  unfold mapToAbd at h
  obtain ⟨b0, h1, h⟩ := bind_ok h
  obtain ⟨⟨S, T2⟩, h2, h⟩ := bind_ok h
  simp only at h
  obtain ⟨st, h3, h⟩ := bind_ok h
  obtain ⟨a0, ha⟩ : ∃ a0, c.transform interp b0 = .ok a0 := by
    obtain ⟨n, hn⟩ : ∃ n, N.toNat = n + 1 := ⟨N.toNat - 1, by omega⟩
    rw [hn] at h3
    unfold loop pass at h3
    obtain ⟨_, h3, _⟩ := bind_ok h3
    obtain ⟨a0, h3, _⟩ := bind_ok h3
    exact ⟨a0, by unfold present at h3; rwa [if_pos rfl] at h3⟩
  obtain ⟨l, b, a, q1, q2, q3⟩ := loop_spec c fix one interp target S T2 b0 a0 N.toNat [] _ st a0 (by unfold present; rw [if_pos rfl]; exact ha) Tries.nil rfl (Or.inr ⟨rfl, fun _ h => by cases h⟩) h3
  rcases q3 with ⟨i, T', e', r1, r2, r3⟩ | ⟨r1, -⟩
  · rw [r2] at h
    simp only at h
    obtain ⟨a', r4, h⟩ := bind_ok h
    cases h
    exact ⟨S, T2, b0, a0, l, b, a, i, h2, h1, ha, q1, by simpa using q2, r1, r3, r4⟩
  · rw [r1] at h
    cases h

/-- C80 is violated if no iteration is allowed: `UnboundLocalError`, after the superrest frame of the target has been found. -/
theorem abd_no_iterations (c : Calls A B) (fix : Bool) (one : B) (abd interp target : A) (start b0 T2 : B) (S : A) (h1 : c.reorder (c.mul start one) = .ok b0) (h2 : c.superrest target = .ok (S, T2)) (N : Int) (hN : N ≤ 0) :
    mapToAbd c fix one abd interp target start N = .error .unboundLocal := by
  unfold mapToAbd
  rw [h1, ok_bind, h2, ok_bind, show N.toNat = 0 by omega]
  rfl

/-- C80 is violated if the error is never finite: there is no result. -/
theorem abd_nan (c : Calls A B) (one : B) (abd interp target : A) (start : B) (N : Int) (h : ∀ a b e, c.relErr a b = .ok e → ¬ e.lt .inf) : ∃ e, mapToAbd c false one abd interp target start N = .error e := by
  rcases e : mapToAbd c false one abd interp target start N with x | ⟨a', T, e'⟩
  · exact ⟨x, rfl⟩
  exfalso
  by_cases hN : 0 < N
  · obtain ⟨S, T2, b0, a0, l, b, a, i, -, -, -, q, -, q1, ⟨e2, f1, f2, -⟩, -⟩ := abd_best_partial c false one abd interp target start N hN a' T e' e
    have key : ∀ l b a, Tries c false one interp target S T2 b0 a0 l b a → ∀ x ∈ l, ¬ x.2.lt .inf := by
      intro l b a h'
      induction h' with
      | nil => intro x hx; cases hx
      | aligned => contradiction
      | unaligned l b b1 T1 a s a1 e _ _ _ _ _ he ih =>
        intro x hx
        rcases List.mem_append.mp hx with hx | hx
        · exact ih x hx
        · rw [List.mem_singleton] at hx
          subst hx
          exact h _ _ _ he
    rw [List.getElem?_map, q1] at f1
    cases f1
    exact key l b a q _ (List.mem_of_getElem? q1) f2
  · unfold mapToAbd at e
    obtain ⟨_, _, e⟩ := bind_ok e
    obtain ⟨_, _, e⟩ := bind_ok e
    simp only [show N.toNat = 0 by omega] at e
    cases e

/-! ## Exact parts give the exact transformation -/

section
variable [Group B] [MulAction B A]

/-- C80: if the superrest frames of the data and of the target agree up to a time translation and a rotation about z, and the alignment finds these, the transformation that is returned maps the data (in the window) to the
target, and its error is 0, after any number of passes. -/
theorem abd_exact (c : Calls A B) (hc : Acts c) (abd interp target s1 S : A) (start T1 T2 : B) (x1 y1 x y x2 y2 : ℝ) (e1 e2 : Err) (h1 : c.superrest (start • interp) = .ok (s1, T1)) (h1' : s1 = T1 • start • interp)
    (h2 : c.superrest target = .ok (S, T2)) (h2' : S = T2 • target) (h3 : c.align s1 S = .ok (e1, x1, y1)) (h3' : c.timePhase x1 y1 • s1 = S) (h4 : c.align target target = .ok (.fin 0, x, y)) (h4' : c.timePhase x y = 1)
    (h5 : c.align S S = .ok (e2, x2, y2)) (h5' : c.timePhase x2 y2 • S = S) (N : Int) (hN : 0 < N) :
    ∃ T, mapToAbd c true 1 abd interp target start N = .ok (T • abd, T, .fin 0) ∧ T • interp = target := by
  have step : ∀ (st : St A B) (a s : A) (T1 : B) (x1 y1 : ℝ) (e1 : Err), present c interp st = .ok a → st.bms • interp = a → c.superrest a = .ok (s, T1) → T1 • a = s → c.align s S = .ok (e1, x1, y1) → c.timePhase x1 y1 • s = S →
      ∃ b, pass c true 1 interp target S T2 st = .ok (b, target, .fin 0) ∧ b • interp = target := by
    intro st a s T1 x1 y1 e1 q1 q2 q3 q4 q5 q6
    have hb : (T2⁻¹ * (c.timePhase x1 y1 * (T1 * st.bms))) • interp = target := by
      rw [mul_smul, mul_smul, mul_smul, q2, q4, q6, h2', inv_smul_smul]
    refine ⟨T2⁻¹ * (c.timePhase x1 y1 * (T1 * st.bms)), ?_, hb⟩
    unfold pass firstAlign secondAlign
    simp only [q1, ok_bind, q3, if_true, q5, hc.mul, hc.inv, hc.reorder, hc.transform, pure, Except.pure, bind, Except.bind]
    simp only [hb, h4, h4', one_mul]
  have later : ∀ (n : Nat) (st : St A B), st.itr ≠ 0 → st.prime = some target → st.bms • interp = target → (∃ T, st.best = some (T, .fin 0) ∧ T • interp = target) →
      ∃ st', loop c true 1 interp target S T2 n st = .ok st' ∧ ∃ T, st'.best = some (T, .fin 0) ∧ T • interp = target := by
    intro n
    induction n with
    | zero => intro st _ _ _ hb; exact ⟨st, rfl, hb⟩
    | succ n ih =>
      intro st hi hp hbm hb
      obtain ⟨b, p1, p2⟩ := step st target S T2 x2 y2 e2 (by unfold present; rw [if_neg hi, hp]) hbm h2 h2'.symm h5 h5'
      unfold loop
      rw [p1, ok_bind]
      refine ih _ (Nat.succ_ne_zero _) rfl p2 ?_
      simp only
      split
      · exact ⟨b, rfl, p2⟩
      · exact hb
  obtain ⟨n, hn⟩ : ∃ n, N.toNat = n + 1 := ⟨N.toNat - 1, by omega⟩
  obtain ⟨b, p1, p2⟩ := step { itr := 0, bms := start, prime := none, errs := [.inf], best := none } (start • interp) s1 T1 x1 y1 e1 (by unfold present; rw [if_pos rfl]; exact hc.transform _ _) rfl h1 h1'.symm h3 h3'
  obtain ⟨st', p3, T, p4, p5⟩ := later n { itr := 0 + 1, bms := b, prime := some target, errs := [.inf] ++ [.fin 0], best := if (Err.fin 0).lt (pyMin [.inf]) then some (b, .fin 0) else none } (by simp) rfl p2
    ⟨b, if_pos trivial, p2⟩
  refine ⟨T, ?_, p5⟩
  unfold mapToAbd
  rw [hc.mul, hc.reorder, ok_bind, mul_one, h2, ok_bind, hn]
  have : loop c true 1 interp target S T2 (n + 1) { itr := 0, bms := start, prime := none, errs := [.inf], best := none } = .ok st' := by
    unfold loop
    rw [p1, ok_bind]
    exact p3
  simp only [this, ok_bind, p4, hc.transform]
  rfl

/-- C80 without the alignment: the same, if the superrest frames agree. -/
theorem abd_exact_unaligned (c : Calls A B) (hc : Acts c) (abd interp target S : A) (start T1 T2 : B) (h1 : c.superrest (start • interp) = .ok (S, T1)) (h1' : S = T1 • start • interp)
    (h2 : c.superrest target = .ok (S, T2)) (h2' : S = T2 • target) (h3 : c.relErr target target = .ok (.fin 0)) (N : Int) (hN : 0 < N) :
    ∃ T, mapToAbd c false 1 abd interp target start N = .ok (T • abd, T, .fin 0) ∧ T • interp = target := by
  have step : ∀ (st : St A B) (a : A) (T1 : B), present c interp st = .ok a → st.bms • interp = a → c.superrest a = .ok (S, T1) → T1 • a = S →
      ∃ b, pass c false 1 interp target S T2 st = .ok (b, target, .fin 0) ∧ b • interp = target := by
    intro st a T1 q1 q2 q3 q4
    have hb : (T2⁻¹ * (1 * (T1 * st.bms))) • interp = target := by
      rw [one_mul, mul_smul, mul_smul, q2, q4, h2', inv_smul_smul]
    refine ⟨T2⁻¹ * (1 * (T1 * st.bms)), ?_, hb⟩
    unfold pass firstAlign secondAlign
    simp only [q1, q3, Bool.false_eq_true, if_false, hc.mul, hc.inv, hc.reorder, hc.transform, pure, Except.pure, bind, Except.bind]
    simp only [hb, h3]
  have later : ∀ (n : Nat) (st : St A B), st.itr ≠ 0 → st.prime = some target → st.bms • interp = target → (∃ T, st.best = some (T, .fin 0) ∧ T • interp = target) →
      ∃ st', loop c false 1 interp target S T2 n st = .ok st' ∧ ∃ T, st'.best = some (T, .fin 0) ∧ T • interp = target := by
    intro n
    induction n with
    | zero => intro st _ _ _ hb; exact ⟨st, rfl, hb⟩
    | succ n ih =>
      intro st hi hp hbm hb
      obtain ⟨b, p1, p2⟩ := step st target T2 (by unfold present; rw [if_neg hi, hp]) hbm h2 h2'.symm
      unfold loop
      rw [p1, ok_bind]
      refine ih _ (Nat.succ_ne_zero _) rfl p2 ?_
      simp only
      split
      · exact ⟨b, rfl, p2⟩
      · exact hb
  obtain ⟨n, hn⟩ : ∃ n, N.toNat = n + 1 := ⟨N.toNat - 1, by omega⟩
  obtain ⟨b, p1, p2⟩ := step { itr := 0, bms := start, prime := none, errs := [.inf], best := none } (start • interp) T1 (by unfold present; rw [if_pos rfl]; exact hc.transform _ _) rfl h1 h1'.symm
  obtain ⟨st', p3, T, p4, p5⟩ := later n { itr := 0 + 1, bms := b, prime := some target, errs := [.inf] ++ [.fin 0], best := if (Err.fin 0).lt (pyMin [.inf]) then some (b, .fin 0) else none } (by simp) rfl p2
    ⟨b, if_pos trivial, p2⟩
  refine ⟨T, ?_, p5⟩
  unfold mapToAbd
  rw [hc.mul, hc.reorder, ok_bind, mul_one, h2, ok_bind, hn]
  have : loop c false 1 interp target S T2 (n + 1) { itr := 0, bms := start, prime := none, errs := [.inf], best := none } = .ok st' := by
    unfold loop
    rw [p1, ok_bind]
    exact p3
  simp only [this, ok_bind, p4, hc.transform]
  rfl

end

/-! ## Non-vacuity -/

/-- The trapezoidal rule. -/
noncomputable def trap : List ℝ → List ℝ → ℝ
  | y0 :: y1 :: y, t0 :: t1 :: t => (y0 + y1) / 2 * (t1 - t0) + trap (y1 :: y) (t1 :: t)
  | _, _ => 0

theorem trap_nonneg : ∀ (y t : List ℝ), y.length = t.length → t.Pairwise (· < ·) → (∀ x ∈ y, 0 ≤ x) → 0 ≤ trap y t
  | y0 :: y1 :: y, t0 :: t1 :: t, hl, hp, hn => by
    have ih := trap_nonneg (y1 :: y) (t1 :: t) (by simpa using hl) (List.Pairwise.of_cons hp) (fun x hx => hn x (List.mem_cons_of_mem _ hx))
    have h1 : t0 < t1 := (List.pairwise_cons.1 hp).1 t1 (by simp)
    have := mul_nonneg (add_nonneg (hn y0 (by simp)) (hn y1 (by simp))) (sub_pos.2 h1).le
    unfold trap
    linarith
  | [], [], _, _, _ => by simp [trap]
  | [_], [_], _, _, _ => by simp [trap]
  | [], _ :: _, hl, _, _ => by simp at hl
  | _ :: _, [], hl, _, _ => by simp at hl
  | [_], _ :: _ :: _, hl, _, _ => by simp at hl
  | _ :: _ :: _, [_], hl, _, _ => by simp at hl

theorem trap_zero : ∀ (y t : List ℝ), y.length = t.length → t.Pairwise (· < ·) → 2 ≤ t.length → (∀ x ∈ y, 0 ≤ x) → (trap y t = 0 ↔ ∀ x ∈ y, x = 0)
  | y0 :: y1 :: y, t0 :: t1 :: t, hl, hp, _, hn => by
    have h1 : t0 < t1 := (List.pairwise_cons.1 hp).1 t1 (by simp)
    have hr := trap_nonneg (y1 :: y) (t1 :: t) (by simpa using hl) (List.Pairwise.of_cons hp) (fun x hx => hn x (List.mem_cons_of_mem _ hx))
    have n0 := hn y0 (by simp)
    have n1 := hn y1 (by simp)
    constructor
    · intro h
      unfold trap at h
      have hs : (y0 + y1) / 2 * (t1 - t0) = 0 := le_antisymm (by linarith) (mul_nonneg (by linarith) (by linarith))
      have hs' : y0 + y1 = 0 := by
        rcases mul_eq_zero.1 hs with h | h
        · linarith
        · linarith
      have e0 : y0 = 0 := by linarith
      have e1 : y1 = 0 := by linarith
      have ht : trap (y1 :: y) (t1 :: t) = 0 := by linarith
      cases y with
      | nil => intro x hx; simp at hx; rcases hx with rfl | rfl <;> assumption
      | cons y2 y =>
        cases t with
        | nil => simp at hl
        | cons t2 t =>
          have := (trap_zero (y1 :: y2 :: y) (t1 :: t2 :: t) (by simpa using hl) (List.Pairwise.of_cons hp) (by simp) (fun x hx => hn x (List.mem_cons_of_mem _ hx))).1 ht
          intro x hx
          rcases List.mem_cons.1 hx with rfl | hx
          · exact e0
          · exact this x hx
    · intro h
      have hz : ∀ (y t : List ℝ), (∀ x ∈ y, x = 0) → trap y t = 0 := by
        intro y
        induction y with
        | nil => intro t _; simp [trap]
        | cons a y ih =>
          intro t hy
          match y, t with
          | [], _ => simp [trap]
          | b :: y, [] => simp [trap]
          | b :: y, [_] => simp [trap]
          | b :: y, t0 :: t1 :: t =>
            unfold trap
            rw [ih (t1 :: t) (fun x hx => hy x (List.mem_cons_of_mem _ hx)), hy a (by simp), hy b (by simp)]
            ring
      exact hz _ _ h
  | [], [], _, _, h, _ => by simp at h
  | [_], [_], _, _, h, _ => by simp at h
  | [], _ :: _, hl, _, _, _ => by simp at hl
  | _ :: _, [], hl, _, _, _ => by simp at hl
  | [_], _ :: _ :: _, hl, _, _, _ => by simp at hl
  | _ :: _ :: _, [_], hl, _, _, _ => by simp at hl

example : PositiveIntegral trap := fun y t hl hp h2 hn => ⟨trap_nonneg y t hl hp hn, trap_zero y t hl hp h2 hn⟩

example (y : List ℝ) (u : ℝ) : trap y [u] = 0 := by
  match y with
  | [] => rfl
  | [_] => rfl
  | _ :: _ :: _ => rfl

/-- A small case: data are numbers, transformations add numbers, and 0 is the only superrest datum up to multiples of 5, which are time translations. -/
noncomputable def toy : Calls ℤ (Multiplicative ℤ) where
  transform a b := .ok (b.toAdd + a)
  superrest a := .ok (a % 5, Multiplicative.ofAdd (a % 5 - a))
  align a S := .ok (.fin |(a : ℝ) - S|, S - a, 0)
  timePhase x _ := Multiplicative.ofAdd ⌊x⌋
  mul x y := x * y
  inv x := x⁻¹
  reorder x := .ok x
  relErr a b := .ok (.fin |(a : ℝ) - b|)

instance : MulAction (Multiplicative ℤ) ℤ where
  smul b a := b.toAdd + a
  one_smul a := zero_add a
  mul_smul x y a := add_assoc x.toAdd y.toAdd a

theorem toy_acts : Acts toy := ⟨fun _ _ => rfl, fun _ _ => rfl, fun _ => rfl, fun _ => rfl⟩

/-- The hypotheses of `abd_exact` can be met: 13 is mapped to 21. -/
example : ∃ T, mapToAbd toy true 1 13 13 21 1 3 = .ok (T • (13 : ℤ), T, .fin 0) ∧ T • (13 : ℤ) = 21 :=
  abd_exact toy toy_acts 13 13 21 3 1 1 (Multiplicative.ofAdd (-10)) (Multiplicative.ofAdd (-20)) _ _ _ _ _ _ _ _ rfl rfl rfl rfl rfl
    (show ⌊((1 : ℤ) : ℝ) - ((3 : ℤ) : ℝ)⌋ + (3 : ℤ) = 1 by norm_num) (show Except.ok (Err.fin |((21 : ℤ) : ℝ) - ((21 : ℤ) : ℝ)|, ((21 : ℤ) : ℝ) - ((21 : ℤ) : ℝ), (0 : ℝ)) = .ok (.fin 0, 0, 0) by norm_num)
    (by show Multiplicative.ofAdd ⌊(0 : ℝ)⌋ = 1; simp) rfl (show ⌊((1 : ℤ) : ℝ) - ((1 : ℤ) : ℝ)⌋ + (1 : ℤ) = 1 by norm_num) 3 (by norm_num)

example : ∃ T, mapToAbd toy false 1 13 13 23 1 3 = .ok (T • (13 : ℤ), T, .fin 0) ∧ T • (13 : ℤ) = 23 :=
  abd_exact_unaligned toy toy_acts 13 13 23 3 1 (Multiplicative.ofAdd (-10)) (Multiplicative.ofAdd (-20)) rfl rfl rfl rfl
    (show Except.ok (Err.fin |((23 : ℤ) : ℝ) - ((23 : ℤ) : ℝ)|) = .ok (.fin 0) by norm_num) 3 (by norm_num)

end Verif.Props.AbdFrame
