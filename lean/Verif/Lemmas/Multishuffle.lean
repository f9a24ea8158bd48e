import Verif.Model.Multishuffle
import Verif.Spec.Multishuffle
import Mathlib.Tactic.Ring
import Mathlib.Tactic.Linarith
import Mathlib.Data.Nat.Bits
import Mathlib.Data.Nat.Bitwise

namespace Verif.Multishuffle
open Verif.Spec.Multishuffle

/-- little-endian value of an array of `bw`-bit words -/
def val (bw : Nat) : List Nat → Nat
  | [] => 0
  | x :: l => x + 2 ^ bw * val bw l

theorem val_append (bw : Nat) (l₁ l₂ : List Nat) :
    val bw (l₁ ++ l₂) = val bw l₁ + 2 ^ (bw * l₁.length) * val bw l₂ := by
  induction l₁ with
  | nil => simp [val]
  | cons x l ih => simp [val, ih]; ring

theorem val_lt (bw : Nat) (l : List Nat) (h : Fits bw l) : val bw l < 2 ^ (bw * l.length) := by
  induction l with
  | nil => simp [val]
  | cons x l ih =>
    have hx : x < 2 ^ bw := h x (by simp)
    have := ih (fun y hy => h y (by simp [hy]))
    have e : 2 ^ (bw * (x :: l).length) = 2 ^ bw * 2 ^ (bw * l.length) := by
      rw [← pow_add]; congr 1; simp; ring
    rw [e]; unfold val
    have : val bw l + 1 ≤ 2 ^ (bw * l.length) := this
    nlinarith

theorem val_zero (bw : Nat) (l : List Nat) : val bw l = 0 ↔ ∀ x ∈ l, x = 0 := by
  induction l with
  | nil => simp [val]
  | cons x l ih =>
    simp only [val, List.mem_cons, forall_eq_or_imp]
    rw [← ih]
    have : 0 < 2 ^ bw := by positivity
    constructor
    · intro h
      refine ⟨by omega, ?_⟩
      have : 2 ^ bw * val bw l = 0 := by omega
      rcases Nat.mul_eq_zero.mp this with h | h
      · omega
      · exact h
    · rintro ⟨rfl, h⟩; simp [h]

theorem val_replicate (bw n : Nat) : val bw (List.replicate n 0) = 0 := by
  rw [val_zero]; intro x hx; exact (List.mem_replicate.mp hx).2

theorem split_at (b : List Nat) (i : Nat) (h : i < b.length) :
    ∃ pre x post, b = pre ++ x :: post ∧ pre.length = i := by
  refine ⟨b.take i, b[i], b.drop (i + 1), ?_, by simp; omega⟩
  rw [List.getElem_cons_drop, List.take_append_drop]

theorem set_split (pre post : List Nat) (x y : Nat) :
    (pre ++ x :: post).set pre.length y = pre ++ y :: post := by simp

theorem getD_split (pre post : List Nat) (x : Nat) :
    (pre ++ x :: post).getD pre.length 0 = x := by simp

theorem addAt_split (bw : Nat) (pre post : List Nat) (x v : Nat) :
    addAt bw (pre ++ x :: post) pre.length v = .ok (pre ++ ((x + v) % 2 ^ bw) :: post) := by
  unfold addAt
  rw [if_pos (by simp), getD_split, set_split]

theorem addAt_split' (bw : Nat) (pre post : List Nat) (x y v : Nat) :
    addAt bw (pre ++ x :: y :: post) (pre.length + 1) v =
      .ok (pre ++ x :: ((y + v) % 2 ^ bw) :: post) := by
  have := addAt_split bw (pre ++ [x]) post y v
  simpa using this

theorem readAt_split (pre post : List Nat) (x : Nat) :
    readAt (pre ++ x :: post) pre.length = .ok x := by
  unfold readAt
  rw [if_pos (by simp), getD_split]

theorem readAt_split' (pre post : List Nat) (x y : Nat) :
    readAt (pre ++ x :: y :: post) (pre.length + 1) = .ok y := by
  have := readAt_split (pre ++ [x]) post y
  simpa using this

theorem fits_split {bw : Nat} {pre post : List Nat} {x : Nat} :
    Fits bw (pre ++ x :: post) ↔ Fits bw pre ∧ x < 2 ^ bw ∧ Fits bw post := by
  unfold Fits
  simp only [List.mem_append, List.mem_cons]
  constructor
  · intro h
    exact ⟨fun y hy => h y (Or.inl hy), h x (by simp), fun y hy => h y (by simp [hy])⟩
  · rintro ⟨h1, h2, h3⟩ y (hy | rfl | hy)
    · exact h1 y hy
    · exact h2
    · exact h3 y hy

/-- The write lemma: one step of the shuffle loop adds the field at the current position. -/
theorem shuffleStep_spec (bw w s : Nat) (b : List Nat) (pos x : Nat)
    (hw0 : 0 < w) (hw : w ≤ bw) (hb : Fits bw b) (hlow : val bw b < 2 ^ pos)
    (hroom : pos + w ≤ bw * b.length) :
    ∃ b', shuffleStep bw w s (b, pos) x = .ok (b', pos + w) ∧ b'.length = b.length ∧
      Fits bw b' ∧ val bw b' = val bw b + 2 ^ pos * ((x >>> s) % 2 ^ w) := by
  have hbw : 0 < bw := by omega
  have hpos : pos < bw * b.length := by omega
  have hidx : pos / bw < b.length := Nat.div_lt_of_lt_mul hpos
  obtain ⟨pre, y, post, rfl, hpre⟩ := split_at b (pos / bw) hidx
  have hel : pos % bw < bw := Nat.mod_lt _ hbw
  have hdm : pos = bw * pre.length + pos % bw := by rw [hpre]; exact (Nat.div_add_mod pos bw).symm
  generalize hE : pos % bw = el at *
  have hmask : (x >>> s) &&& (2 ^ w - 1) = (x >>> s) % 2 ^ w := Nat.and_two_pow_sub_one_eq_mod _ _
  generalize hv : (x >>> s) % 2 ^ w = v at *
  have hvlt : v < 2 ^ w := hv ▸ Nat.mod_lt _ (by positivity)
  obtain ⟨f1, f2, f3⟩ := fits_split.mp hb
  -- the part above the current position is empty
  have hV : val bw (pre ++ y :: post) =
      val bw pre + 2 ^ (bw * pre.length) * (y + 2 ^ bw * val bw post) := by
    rw [val_append]; rfl
  have hpos2 : 2 ^ pos = 2 ^ (bw * pre.length) * 2 ^ el := by rw [← pow_add, ← hdm]
  have hlow' : y + 2 ^ bw * val bw post < 2 ^ el := by
    rw [hV, hpos2] at hlow
    have hp : 0 < 2 ^ (bw * pre.length) := by positivity
    by_contra hcon
    push Not at hcon
    have := Nat.mul_le_mul_left (2 ^ (bw * pre.length)) hcon
    omega
  have helbw : 2 ^ el < 2 ^ bw := Nat.pow_lt_pow_right (by norm_num) hel
  have hpost : val bw post = 0 := by
    by_contra hne
    have : 1 ≤ val bw post := by omega
    have := Nat.mul_le_mul_left (2 ^ bw) this
    omega
  have hy : y < 2 ^ el := by omega
  unfold shuffleStep
  simp only [hE, hmask]
  have hpre' : pos / bw = pre.length := hpre.symm
  rw [hpre', addAt_split]
  simp only [Nat.shiftLeft_eq, Nat.shiftRight_eq_div_pow]
  by_cases hsp : el + w > bw
  · -- the field straddles two words
    cases post with
    | nil =>
      exfalso
      simp only [List.length_append, List.length_cons, List.length_nil] at hroom
      have : bw * (pre.length + (0 + 1)) = bw * pre.length + bw := by ring
      omega
    | cons z post =>
      have hz : z = 0 := (val_zero bw (z :: post)).mp hpost z (by simp)
      have hpost' : val bw post = 0 := by
        have := (val_zero bw (z :: post)).mp hpost
        exact (val_zero bw post).mpr fun t ht => this t (by simp [ht])
      subst hz
      have hd : v / 2 ^ (bw - el) < 2 ^ bw :=
        lt_of_le_of_lt (Nat.div_le_self _ _)
          (lt_of_lt_of_le hvlt (Nat.pow_le_pow_right (by norm_num) hw))
      refine ⟨pre ++ ((y + v * 2 ^ el) % 2 ^ bw) :: (v / 2 ^ (bw - el)) :: post, ?_, by simp, ?_, ?_⟩
      · simp only [hsp, if_true]
        show (do
          let b ← addAt bw (pre ++ (y + v * 2 ^ el) % 2 ^ bw :: 0 :: post) (pre.length + 1)
            (v / 2 ^ (bw - el))
          pure (b, pos + w)) = _
        rw [addAt_split', Nat.zero_add, Nat.mod_eq_of_lt hd]
        rfl
      · rw [fits_split]
        refine ⟨f1, Nat.mod_lt _ (by positivity), ?_⟩
        intro t ht
        rcases List.mem_cons.mp ht with rfl | ht
        · exact hd
        · exact f3 t (by simp [ht])
      · rw [hV, val_append]
        simp only [val, hpost', Nat.mul_zero, Nat.add_zero, hpos2]
        have hdiv : v / 2 ^ (bw - el) = (y + v * 2 ^ el) / 2 ^ bw := by
          have e2 : 2 ^ bw = 2 ^ el * 2 ^ (bw - el) := by rw [← pow_add]; congr 1; omega
          rw [e2, ← Nat.div_div_eq_div_mul, Nat.add_mul_div_right _ _ (by positivity),
            Nat.div_eq_of_lt hy, Nat.zero_add]
        rw [hdiv, Nat.mod_add_div]
        ring
  · refine ⟨pre ++ (y + v * 2 ^ el) :: post, ?_, by simp, ?_, ?_⟩
    · simp only [hsp, if_false]
      have hlt : y + v * 2 ^ el < 2 ^ bw := by
        have h1 : 2 ^ el * 2 ^ w ≤ 2 ^ bw := by
          rw [← pow_add]; exact Nat.pow_le_pow_right (by norm_num) (by omega)
        have h2 : (v + 1) * 2 ^ el ≤ 2 ^ w * 2 ^ el := Nat.mul_le_mul_right _ hvlt
        nlinarith
      rw [Nat.mod_eq_of_lt hlt]
      rfl
    · rw [fits_split]
      refine ⟨f1, ?_, f3⟩
      have h1 : 2 ^ el * 2 ^ w ≤ 2 ^ bw := by
        rw [← pow_add]; exact Nat.pow_le_pow_right (by norm_num) (by omega)
      have h2 : (v + 1) * 2 ^ el ≤ 2 ^ w * 2 ^ el := Nat.mul_le_mul_right _ hvlt
      nlinarith
    · rw [hV, val_append]
      simp only [val, hpost, Nat.mul_zero, Nat.add_zero, hpos2]
      ring

/-- value of one group of `w`-bit digits -/
def gval (w : Nat) : List Nat → Nat
  | [] => 0
  | d :: l => d + 2 ^ w * gval w l

theorem gval_lt (w : Nat) (l : List Nat) (h : ∀ d ∈ l, d < 2 ^ w) :
    gval w l < 2 ^ (l.length * w) := by
  have := val_lt w l h
  rw [Nat.mul_comm]
  have e : ∀ l, gval w l = val w l := by
    intro l; induction l with
    | nil => rfl
    | cons x l ih => simp [gval, val, ih]
  rw [e]; exact this

/-- value of all groups, least significant group first -/
def flatVal (n : Nat) : List Nat → List (List Nat) → Nat
  | w :: ws, d :: D => gval w d + 2 ^ (n * w) * flatVal n ws D
  | _, _ => 0

/-- the digits of all elements, group by group, as the forward loop extracts them -/
def fieldsAt (s : Nat) : List Nat → List Nat → List (List Nat)
  | [], _ => []
  | w :: ws, a => a.map (fun x => (x >>> s) % 2 ^ w) :: fieldsAt (s + w) ws a

theorem inner_shuffle (bw w s : Nat) (hw0 : 0 < w) (hw : w ≤ bw) (a : List Nat) (b : List Nat)
    (pos : Nat) (hb : Fits bw b) (hlow : val bw b < 2 ^ pos)
    (hroom : pos + a.length * w ≤ bw * b.length) :
    ∃ b', a.foldlM (shuffleStep bw w s) (b, pos) = .ok (b', pos + a.length * w) ∧
      b'.length = b.length ∧ Fits bw b' ∧
      val bw b' = val bw b + 2 ^ pos * gval w (a.map fun x => (x >>> s) % 2 ^ w) := by
  induction a generalizing b pos with
  | nil => exact ⟨b, by simp [pure, Except.pure], rfl, hb, by simp [gval]⟩
  | cons x a ih =>
    simp only [List.length_cons] at hroom
    have e : (a.length + 1) * w = a.length * w + w := by ring
    obtain ⟨b1, h1, l1, f1, v1⟩ := shuffleStep_spec bw w s b pos x hw0 hw hb hlow (by omega)
    have hlow1 : val bw b1 < 2 ^ (pos + w) := by
      rw [v1, pow_add]
      have : (x >>> s) % 2 ^ w < 2 ^ w := Nat.mod_lt _ (by positivity)
      have : (x >>> s) % 2 ^ w + 1 ≤ 2 ^ w := this
      have := Nat.mul_le_mul_left (2 ^ pos) this
      nlinarith
    obtain ⟨b2, h2, l2, f2, v2⟩ := ih b1 (pos + w) f1 hlow1 (by rw [l1]; omega)
    refine ⟨b2, ?_, by rw [l2, l1], f2, ?_⟩
    · rw [List.foldlM_cons, h1]
      show List.foldlM (shuffleStep bw w s) (b1, pos + w) a = _
      rw [h2]
      congr 2
      simp only [List.length_cons]; omega
    · rw [v2, v1, List.map_cons]
      simp only [gval]
      rw [pow_add]; ring

theorem outer_shuffle (bw : Nat) (a : List Nat) (ws pre : List Nat) (hpos : ∀ w ∈ ws, 0 < w)
    (hsum : pre.sum + ws.sum = bw) (b : List Nat) (hb : Fits bw b)
    (hlen : b.length = a.length) (hlow : val bw b < 2 ^ (a.length * pre.sum)) :
    ∃ b', (ws.zipIdx pre.length).foldlM (shuffleGroup bw (pre ++ ws) a)
        (b, a.length * pre.sum) = .ok (b', a.length * bw) ∧ b'.length = b.length ∧ Fits bw b' ∧
      val bw b' = val bw b + 2 ^ (a.length * pre.sum) *
        flatVal a.length ws (fieldsAt pre.sum ws a) := by
  induction ws generalizing pre b with
  | nil =>
    refine ⟨b, ?_, rfl, hb, by simp [flatVal]⟩
    simp only [List.sum_nil, Nat.add_zero] at hsum
    simp [pure, Except.pure, hsum]
  | cons w ws ih =>
    have hw0 : 0 < w := hpos w (by simp)
    simp only [List.sum_cons] at hsum
    have hroom : a.length * pre.sum + a.length * w ≤ bw * b.length := by
      rw [hlen, ← Nat.mul_add, Nat.mul_comm bw]
      exact Nat.mul_le_mul_left _ (by omega)
    obtain ⟨b1, h1, l1, f1, v1⟩ := inner_shuffle bw w pre.sum hw0 (by omega) a b
      (a.length * pre.sum) hb hlow hroom
    have hs : (pre ++ [w]).sum = pre.sum + w := by simp
    have hlow1 : val bw b1 < 2 ^ (a.length * (pre ++ [w]).sum) := by
      rw [v1, hs, Nat.mul_add, pow_add]
      have := gval_lt w (a.map fun x => (x >>> pre.sum) % 2 ^ w) (by
        intro d hd
        obtain ⟨x, -, rfl⟩ := List.mem_map.mp hd
        exact Nat.mod_lt _ (by positivity))
      rw [List.length_map] at this
      have := Nat.mul_le_mul_left (2 ^ (a.length * pre.sum)) (Nat.succ_le_of_lt this)
      rw [Nat.mul_succ] at this
      omega
    obtain ⟨b2, h2, l2, f2, v2⟩ := ih (pre ++ [w]) (fun x hx => hpos x (by simp [hx]))
      (by rw [hs]; omega) b1 f1 (by rw [l1, hlen]) hlow1
    refine ⟨b2, ?_, by rw [l2, l1], f2, ?_⟩
    · rw [List.zipIdx_cons, List.foldlM_cons]
      have hg : shuffleGroup bw (pre ++ w :: ws) a (b, a.length * pre.sum) (w, pre.length) =
          .ok (b1, a.length * (pre ++ [w]).sum) := by
        unfold shuffleGroup
        rw [if_neg (by simp; omega)]
        have : ((pre ++ w :: ws).take pre.length).sum = pre.sum := by simp
        simp only [this]
        rw [h1, hs, Nat.mul_add]
      rw [hg]
      have e1 : pre ++ w :: ws = (pre ++ [w]) ++ ws := by simp
      have e2 : pre.length + 1 = (pre ++ [w]).length := by simp
      rw [e1, e2]
      exact h2
    · rw [v2, v1]
      simp only [fieldsAt, flatVal, hs]
      rw [Nat.mul_add, pow_add]; ring

theorem shuffle_spec (widths a : List Nat) (hpos : ∀ w ∈ widths, 0 < w) :
    ∃ b, shuffle widths.sum widths a = .ok b ∧ b.length = a.length ∧ Fits widths.sum b ∧
      val widths.sum b = flatVal a.length widths.reverse (fieldsAt 0 widths.reverse a) := by
  have hrep : Fits widths.sum (List.replicate a.length 0) := by
    intro x hx; rw [(List.mem_replicate.mp hx).2]; positivity
  obtain ⟨b, h, l, f, v⟩ := outer_shuffle widths.sum a widths.reverse []
    (fun w hw => hpos w (by simpa using hw)) (by simp [List.sum_reverse]) (List.replicate a.length 0)
    hrep (by simp) (by simp [val_replicate])
  refine ⟨b, ?_, by simpa using l, f, ?_⟩
  · unfold shuffle
    simp only [List.length_nil, List.nil_append, List.sum_nil, Nat.mul_zero] at h
    rw [h]; rfl
  · simpa [val_replicate] using v

/-- The read lemma: one step of the unshuffle loop reads the field at the current position. -/
theorem unshuffleStep_spec (bw w s : Nat) (b a : List Nat) (pos k : Nat)
    (hw0 : 0 < w) (hw : w ≤ bw) (hs : s + w ≤ bw) (hb : Fits bw b)
    (hroom : pos + w ≤ bw * b.length) (hk : k < a.length) (hak : a.getD k 0 < 2 ^ s) :
    unshuffleStep bw w s b (a, pos) k =
      .ok (a.set k (a.getD k 0 + 2 ^ s * ((val bw b / 2 ^ pos) % 2 ^ w)), pos + w) := by
  have hbw : 0 < bw := by omega
  have hpos : pos < bw * b.length := by omega
  have hidx : pos / bw < b.length := Nat.div_lt_of_lt_mul hpos
  obtain ⟨pre, x, post, rfl, hpre⟩ := split_at b (pos / bw) hidx
  have hel : pos % bw < bw := Nat.mod_lt _ hbw
  have hdm : pos = bw * pre.length + pos % bw := by rw [hpre]; exact (Nat.div_add_mod pos bw).symm
  generalize hE : pos % bw = el at *
  obtain ⟨f1, f2, f3⟩ := fits_split.mp hb
  have hV : val bw (pre ++ x :: post) / 2 ^ pos = x / 2 ^ el + 2 ^ (bw - el) * val bw post := by
    have hpos2 : 2 ^ pos = 2 ^ (bw * pre.length) * 2 ^ el := by rw [← pow_add, ← hdm]
    rw [val_append, hpos2, ← Nat.div_div_eq_div_mul, Nat.add_mul_div_left _ _ (by positivity),
      Nat.div_eq_of_lt (val_lt bw pre f1), Nat.zero_add]
    simp only [val]
    have e2 : 2 ^ bw = 2 ^ el * 2 ^ (bw - el) := by rw [← pow_add]; congr 1; omega
    rw [e2, Nat.mul_assoc, Nat.add_mul_div_left _ _ (by positivity)]
  have hmask : ∀ n, n &&& (2 ^ w - 1) = n % 2 ^ w := fun n => Nat.and_two_pow_sub_one_eq_mod _ _
  have hw2 : 0 < 2 ^ w := by positivity
  unfold unshuffleStep
  simp only [hE, hmask]
  rw [hpre.symm, readAt_split, hV]
  simp only [Nat.shiftLeft_eq, Nat.shiftRight_eq_div_pow]
  -- no truncation happens when a field below `2^w` is added at shift `s`
  have hnt : ∀ v, v < 2 ^ w → (a.getD k 0 + v * 2 ^ s) % 2 ^ bw = a.getD k 0 + 2 ^ s * v := by
    intro v hv
    rw [Nat.mul_comm v, Nat.mod_eq_of_lt]
    have h1 : 2 ^ s * 2 ^ w ≤ 2 ^ bw := by
      rw [← pow_add]; exact Nat.pow_le_pow_right (by norm_num) hs
    have h2 := Nat.mul_le_mul_left (2 ^ s) (Nat.succ_le_of_lt hv)
    rw [Nat.mul_succ] at h2
    omega
  by_cases hsp : el + w > bw
  · cases post with
    | nil =>
      exfalso
      simp only [List.length_append, List.length_cons, List.length_nil] at hroom
      have : bw * (pre.length + (0 + 1)) = bw * pre.length + bw := by ring
      omega
    | cons y post =>
      have hx1 : x / 2 ^ el < 2 ^ (bw - el) := by
        apply Nat.div_lt_of_lt_mul
        rw [← pow_add]
        have : el + (bw - el) = bw := by omega
        rw [this]; exact f2
      have hx2 : x / 2 ^ el % 2 ^ w = x / 2 ^ el :=
        Nat.mod_eq_of_lt (lt_of_lt_of_le hx1 (Nat.pow_le_pow_right (by norm_num) (by omega)))
      have hf : (x / 2 ^ el + 2 ^ (bw - el) * val bw (y :: post)) % 2 ^ w =
          x / 2 ^ el + (y * 2 ^ (bw - el)) % 2 ^ w := by
        have e3 : 2 ^ (bw - el) * val bw (y :: post) =
            y * 2 ^ (bw - el) + 2 ^ w * (2 ^ (bw - w) * (2 ^ (bw - el) * val bw post)) := by
          simp only [val]
          have : 2 ^ bw = 2 ^ w * 2 ^ (bw - w) := by rw [← pow_add]; congr 1; omega
          rw [this]; ring
        rw [e3, ← Nat.add_assoc, Nat.add_mul_mod_self_left]
        have e4 : 2 ^ w = 2 ^ (bw - el) * 2 ^ (w - (bw - el)) := by
          rw [← pow_add]; congr 1; omega
        have e5 : (y * 2 ^ (bw - el)) % 2 ^ w = 2 ^ (bw - el) * (y % 2 ^ (w - (bw - el))) := by
          rw [e4, Nat.mul_comm y, Nat.mul_mod_mul_left]
        rw [Nat.add_mod, hx2, e5]
        apply Nat.mod_eq_of_lt
        rw [e4]
        have h6 : y % 2 ^ (w - (bw - el)) < 2 ^ (w - (bw - el)) := Nat.mod_lt _ (by positivity)
        have h7 := Nat.mul_le_mul_left (2 ^ (bw - el)) (Nat.succ_le_of_lt h6)
        rw [Nat.mul_succ] at h7
        omega
      rw [hf]
      simp only [hsp, if_true, ok_bind, hx2]
      have hlt1 : x / 2 ^ el < 2 ^ w := lt_of_lt_of_le hx1
        (Nat.pow_le_pow_right (by norm_num) (by omega))
      have ha1 : addAt bw a k (x / 2 ^ el * 2 ^ s) =
          .ok (a.set k (a.getD k 0 + 2 ^ s * (x / 2 ^ el))) := by
        unfold addAt
        rw [if_pos hk, hnt _ hlt1]
      rw [ha1, ok_bind, readAt_split', ok_bind]
      have ha2 : addAt bw (a.set k (a.getD k 0 + 2 ^ s * (x / 2 ^ el))) k
          ((y * 2 ^ (bw - el)) % 2 ^ w * 2 ^ s) =
          .ok (a.set k (a.getD k 0 + 2 ^ s * (x / 2 ^ el + (y * 2 ^ (bw - el)) % 2 ^ w))) := by
        unfold addAt
        rw [if_pos (by simpa using hk)]
        have hg : (a.set k (a.getD k 0 + 2 ^ s * (x / 2 ^ el))).getD k 0 =
            a.getD k 0 + 2 ^ s * (x / 2 ^ el) := by
          simp [List.getD_eq_getElem?_getD, hk]
        rw [hg, List.set_set]
        have hsumlt : x / 2 ^ el + (y * 2 ^ (bw - el)) % 2 ^ w < 2 ^ w := by
          rw [← hf]; exact Nat.mod_lt _ (by positivity)
        have := hnt _ hsumlt
        rw [← this]
        congr 3
        ring
      rw [ha2]
      rfl
  · have hf : (x / 2 ^ el + 2 ^ (bw - el) * val bw post) % 2 ^ w = x / 2 ^ el % 2 ^ w := by
      have e3 : 2 ^ (bw - el) * val bw post = 2 ^ w * (2 ^ (bw - el - w) * val bw post) := by
        rw [← Nat.mul_assoc, ← pow_add]; congr 2; omega
      rw [e3, Nat.add_mul_mod_self_left]
    rw [hf]
    simp only [hsp, if_false, ok_bind]
    have ha1 : addAt bw a k (x / 2 ^ el % 2 ^ w * 2 ^ s) =
        .ok (a.set k (a.getD k 0 + 2 ^ s * (x / 2 ^ el % 2 ^ w))) := by
      unfold addAt
      rw [if_pos hk, hnt _ (Nat.mod_lt _ hw2)]
    rw [ha1]
    rfl

theorem inner_unshuffle (bw w s : Nat) (b a : List Nat) (pos : Nat)
    (hw0 : 0 < w) (hw : w ≤ bw) (hs : s + w ≤ bw) (hb : Fits bw b)
    (ha : ∀ k, k < a.length → a.getD k 0 < 2 ^ s) (m : Nat) (hm : m ≤ a.length)
    (hroom : pos + m * w ≤ bw * b.length) :
    ∃ a', (List.range m).foldlM (unshuffleStep bw w s b) (a, pos) = .ok (a', pos + m * w) ∧
      a'.length = a.length ∧
      ∀ k, a'.getD k 0 = if k < m then
        a.getD k 0 + 2 ^ s * ((val bw b / 2 ^ (pos + k * w)) % 2 ^ w) else a.getD k 0 := by
  induction m with
  | zero => exact ⟨a, by simp [pure, Except.pure], rfl, by simp⟩
  | succ m ih =>
    have e : (m + 1) * w = m * w + w := by ring
    obtain ⟨a1, h1, l1, g1⟩ := ih (by omega) (by omega)
    have hk : m < a1.length := by omega
    have hak : a1.getD m 0 < 2 ^ s := by
      rw [g1, if_neg (by omega)]; exact ha m (by omega)
    have hstep := unshuffleStep_spec bw w s b a1 (pos + m * w) m hw0 hw hs hb (by omega) hk hak
    refine ⟨a1.set m (a1.getD m 0 + 2 ^ s * ((val bw b / 2 ^ (pos + m * w)) % 2 ^ w)),
      ?_, by simp [l1], ?_⟩
    · rw [List.range_succ, List.foldlM_append, h1, ok_bind, List.foldlM_cons, hstep, ok_bind]
      simp only [List.foldlM_nil]
      rw [e, Nat.add_assoc]
      rfl
    · intro k
      by_cases hkm : k = m
      · subst hkm
        rw [if_pos (by omega)]
        have hg : a1.getD k 0 = a.getD k 0 := by rw [g1, if_neg (by omega)]
        rw [← hg]
        simp [List.getD_eq_getElem?_getD, hk]
      · have : (a1.set m (a1.getD m 0 + 2 ^ s * ((val bw b / 2 ^ (pos + m * w)) % 2 ^ w))).getD k 0
            = a1.getD k 0 := by
          have h' : ¬ m = k := fun e => hkm e.symm
          simp [List.getD_eq_getElem?_getD, h']
        rw [this, g1]
        by_cases hlt : k < m
        · rw [if_pos hlt, if_pos (by omega)]
        · rw [if_neg hlt, if_neg (by omega)]

/-- element `k` of the unshuffled array, from the value of the shuffled one -/
def unval (n : Nat) : List Nat → Nat → Nat → Nat
  | [], _, _ => 0
  | w :: ws, C, k => (C / 2 ^ (k * w)) % 2 ^ w + 2 ^ w * unval n ws (C / 2 ^ (n * w)) k

theorem unval_lt (n : Nat) (ws : List Nat) (C k : Nat) : unval n ws C k < 2 ^ ws.sum := by
  induction ws generalizing C with
  | nil => simp [unval]
  | cons w ws ih =>
    simp only [unval, List.sum_cons, pow_add]
    have h1 : (C / 2 ^ (k * w)) % 2 ^ w < 2 ^ w := Nat.mod_lt _ (by positivity)
    have h2 := Nat.mul_le_mul_left (2 ^ w) (Nat.succ_le_of_lt (ih (C / 2 ^ (n * w))))
    rw [Nat.mul_succ] at h2
    omega

theorem outer_unshuffle (bw : Nat) (b : List Nat) (hb : Fits bw b) (ws pre : List Nat)
    (hpos : ∀ w ∈ ws, 0 < w) (hsum : pre.sum + ws.sum = bw) (a : List Nat)
    (hlen : a.length = b.length) (ha : ∀ k, k < a.length → a.getD k 0 < 2 ^ pre.sum) :
    ∃ a', (ws.zipIdx pre.length).foldlM (unshuffleGroup bw (pre ++ ws) b)
        (a, b.length * pre.sum) = .ok (a', b.length * bw) ∧ a'.length = b.length ∧
      ∀ k, k < b.length → a'.getD k 0 = a.getD k 0 + 2 ^ pre.sum *
        unval b.length ws (val bw b / 2 ^ (b.length * pre.sum)) k := by
  induction ws generalizing pre a with
  | nil =>
    refine ⟨a, ?_, hlen, by simp [unval]⟩
    simp only [List.sum_nil, Nat.add_zero] at hsum
    simp [pure, Except.pure, hsum]
  | cons w ws ih =>
    have hw0 : 0 < w := hpos w (by simp)
    simp only [List.sum_cons] at hsum
    have hroom : b.length * pre.sum + b.length * w ≤ bw * b.length := by
      rw [← Nat.mul_add, Nat.mul_comm bw]
      exact Nat.mul_le_mul_left _ (by omega)
    obtain ⟨a1, h1, l1, g1⟩ := inner_unshuffle bw w pre.sum b a (b.length * pre.sum) hw0
      (by omega) (by omega) hb ha b.length (by omega) hroom
    have hs : (pre ++ [w]).sum = pre.sum + w := by simp
    have ha1 : ∀ k, k < a1.length → a1.getD k 0 < 2 ^ (pre ++ [w]).sum := by
      intro k hk
      rw [g1, if_pos (by omega), hs, pow_add 2 pre.sum w]
      have h0 := ha k (by omega)
      have h2 := Nat.mul_le_mul_left (2 ^ pre.sum) (Nat.succ_le_of_lt
        (Nat.mod_lt (val bw b / 2 ^ (b.length * pre.sum + k * w)) (show 0 < 2 ^ w by positivity)))
      rw [Nat.mul_succ] at h2
      omega
    obtain ⟨a2, h2, l2, g2⟩ := ih (pre ++ [w]) (fun x hx => hpos x (by simp [hx]))
      (by rw [hs]; omega) a1 (by omega) ha1
    refine ⟨a2, ?_, l2, ?_⟩
    · rw [List.zipIdx_cons, List.foldlM_cons]
      have hg : unshuffleGroup bw (pre ++ w :: ws) b (a, b.length * pre.sum) (w, pre.length) =
          .ok (a1, b.length * (pre ++ [w]).sum) := by
        unfold unshuffleGroup
        rw [if_neg (by simp; omega)]
        have : ((pre ++ w :: ws).take pre.length).sum = pre.sum := by simp
        simp only [this]
        rw [h1, hs, Nat.mul_add]
      rw [hg]
      have e1 : pre ++ w :: ws = (pre ++ [w]) ++ ws := by simp
      have e2 : pre.length + 1 = (pre ++ [w]).length := by simp
      rw [e1, e2]
      exact h2
    · intro k hk
      rw [g2 k hk, g1, if_pos hk, hs]
      simp only [unval]
      rw [Nat.mul_add b.length, pow_add 2 (b.length * pre.sum), ← Nat.div_div_eq_div_mul,
        pow_add 2 (b.length * pre.sum), ← Nat.div_div_eq_div_mul, pow_add]
      ring

theorem unshuffle_spec (widths b : List Nat) (hpos : ∀ w ∈ widths, 0 < w)
    (hb : Fits widths.sum b) :
    ∃ a, unshuffle widths.sum widths b = .ok a ∧ a.length = b.length ∧
      ∀ k, k < b.length → a.getD k 0 = unval b.length widths.reverse (val widths.sum b) k := by
  obtain ⟨a, h, l, g⟩ := outer_unshuffle widths.sum b hb widths.reverse []
    (fun w hw => hpos w (by simpa using hw)) (by simp [List.sum_reverse]) (List.replicate b.length 0)
    (by simp) (by
      intro k hk
      simp only [List.length_replicate] at hk
      simp [List.getD_eq_getElem?_getD, hk])
  refine ⟨a, ?_, l, ?_⟩
  · unfold unshuffle
    simp only [List.length_nil, List.nil_append, List.sum_nil, Nat.mul_zero] at h
    rw [h]; rfl
  · intro k hk
    rw [g k hk]
    simp [List.getD_eq_getElem?_getD, hk]

theorem gval_digit (w : Nat) (d : List Nat) (hd : ∀ x ∈ d, x < 2 ^ w) (R k : Nat)
    (hk : k < d.length) :
    ((gval w d + 2 ^ (d.length * w) * R) / 2 ^ (k * w)) % 2 ^ w = d.getD k 0 := by
  induction d generalizing k with
  | nil => simp at hk
  | cons x d ih =>
    have hx : x < 2 ^ w := hd x (by simp)
    have e : gval w (x :: d) + 2 ^ ((x :: d).length * w) * R =
        x + 2 ^ w * (gval w d + 2 ^ (d.length * w) * R) := by
      have : 2 ^ ((x :: d).length * w) = 2 ^ w * 2 ^ (d.length * w) := by
        rw [← pow_add]; congr 1; simp; ring
      rw [this]; simp only [gval]; ring
    rw [e]
    cases k with
    | zero => simp [Nat.add_mul_mod_self_left, Nat.mod_eq_of_lt hx]
    | succ k =>
      have e2 : 2 ^ ((k + 1) * w) = 2 ^ w * 2 ^ (k * w) := by
        rw [← pow_add]; congr 1; ring
      rw [e2, ← Nat.div_div_eq_div_mul, Nat.add_mul_div_left _ _ (by positivity),
        Nat.div_eq_of_lt hx, Nat.zero_add, ih (fun y hy => hd y (by simp [hy])) k (by simpa using hk)]
      simp

theorem gval_top (w : Nat) (d : List Nat) (hd : ∀ x ∈ d, x < 2 ^ w) (R : Nat) :
    (gval w d + 2 ^ (d.length * w) * R) / 2 ^ (d.length * w) = R := by
  rw [Nat.add_mul_div_left _ _ (by positivity), Nat.div_eq_of_lt (gval_lt w d hd), Nat.zero_add]

theorem unval_flatVal (s : Nat) (ws a : List Nat) (k : Nat) (hk : k < a.length) :
    unval a.length ws (flatVal a.length ws (fieldsAt s ws a)) k =
      (a.getD k 0 / 2 ^ s) % 2 ^ ws.sum := by
  induction ws generalizing s with
  | nil => simp [unval, Nat.mod_one]
  | cons w ws ih =>
    simp only [fieldsAt, flatVal, unval, List.sum_cons]
    set d := a.map (fun x => (x >>> s) % 2 ^ w) with hd
    have hlen : d.length = a.length := by simp [hd]
    have hdl : ∀ x ∈ d, x < 2 ^ w := by
      intro x hx
      rw [hd] at hx
      obtain ⟨y, -, rfl⟩ := List.mem_map.mp hx
      exact Nat.mod_lt _ (by positivity)
    rw [← hlen, gval_digit w d hdl _ k (by omega), gval_top w d hdl, hlen, ih (s + w)]
    have : d.getD k 0 = (a.getD k 0 / 2 ^ s) % 2 ^ w := by
      simp [hd, List.getD_eq_getElem?_getD, hk, Nat.shiftRight_eq_div_pow]
    rw [this, pow_add 2 w, Nat.mod_mul, Nat.div_div_eq_div_mul, ← pow_add]

theorem gval_digits (w n C : Nat) :
    gval w ((List.range n).map fun k => (C / 2 ^ (k * w)) % 2 ^ w) = C % 2 ^ (n * w) := by
  induction n generalizing C with
  | zero => simp [gval, Nat.mod_one]
  | succ n ih =>
    rw [List.range_succ_eq_map, List.map_cons, List.map_map]
    simp only [gval]
    have : ((fun k => (C / 2 ^ (k * w)) % 2 ^ w) ∘ Nat.succ) =
        fun k => ((C / 2 ^ w) / 2 ^ (k * w)) % 2 ^ w := by
      funext k
      simp only [Function.comp, Nat.succ_eq_add_one]
      rw [Nat.div_div_eq_div_mul, ← pow_add]; congr 3; ring
    rw [this, ih (C / 2 ^ w)]
    have e : 2 ^ ((n + 1) * w) = 2 ^ w * 2 ^ (n * w) := by rw [← pow_add]; congr 1; ring
    rw [e, Nat.mod_mul]
    simp

theorem flatVal_unval (s : Nat) (ws a : List Nat) (C : Nat) (lo : Nat → Nat)
    (hlo : ∀ k, lo k < 2 ^ s)
    (ha : ∀ k, k < a.length → a.getD k 0 = lo k + 2 ^ s * unval a.length ws C k) :
    flatVal a.length ws (fieldsAt s ws a) = C % 2 ^ (a.length * ws.sum) := by
  induction ws generalizing s C lo with
  | nil => simp [flatVal, Nat.mod_one]
  | cons w ws ih =>
    simp only [fieldsAt, flatVal, List.sum_cons]
    have hd : a.map (fun x => (x >>> s) % 2 ^ w) =
        (List.range a.length).map fun k => (C / 2 ^ (k * w)) % 2 ^ w := by
      apply List.ext_getElem (by simp)
      intro k h1 h2
      have hk : k < a.length := by simpa using h1
      simp only [List.getElem_map, List.getElem_range]
      have := ha k hk
      have e : a.getD k 0 = a[k] := by simp [List.getD_eq_getElem?_getD, hk]
      rw [e] at this
      rw [this, Nat.shiftRight_eq_div_pow, Nat.add_mul_div_left _ _ (by positivity),
        Nat.div_eq_of_lt (hlo k), Nat.zero_add]
      simp only [unval]
      rw [Nat.add_mul_mod_self_left, Nat.mod_mod]
    rw [hd, gval_digits, ih (s + w) (C / 2 ^ (a.length * w))
      (fun k => lo k + 2 ^ s * ((C / 2 ^ (k * w)) % 2 ^ w)) ?_ ?_]
    · rw [Nat.mul_add, pow_add, Nat.mod_mul]
    · intro k
      have h2 := Nat.mul_le_mul_left (2 ^ s) (Nat.succ_le_of_lt
        (Nat.mod_lt (C / 2 ^ (k * w)) (show 0 < 2 ^ w by positivity)))
      rw [Nat.mul_succ] at h2
      have := hlo k
      simp only [pow_add]
      omega
    · intro k hk
      rw [ha k hk]
      simp only [unval, pow_add]
      ring

theorem val_inj (bw : Nat) (l₁ l₂ : List Nat) (hl : l₁.length = l₂.length) (h1 : Fits bw l₁)
    (h2 : Fits bw l₂) (h : val bw l₁ = val bw l₂) : l₁ = l₂ := by
  induction l₁ generalizing l₂ with
  | nil => exact (List.length_eq_zero_iff.mp hl.symm).symm
  | cons x l₁ ih =>
    cases l₂ with
    | nil => simp at hl
    | cons y l₂ =>
      simp only [val] at h
      have hx : x < 2 ^ bw := h1 x (by simp)
      have hy : y < 2 ^ bw := h2 y (by simp)
      have hxy : x = y := by
        have := congrArg (· % 2 ^ bw) h
        simpa [Nat.add_mul_mod_self_left, Nat.mod_eq_of_lt hx, Nat.mod_eq_of_lt hy] using this
      subst hxy
      have : val bw l₁ = val bw l₂ := by
        have h' : 2 ^ bw * val bw l₁ = 2 ^ bw * val bw l₂ := by omega
        exact Nat.eq_of_mul_eq_mul_left (by positivity) h'
      rw [ih l₂ (by simpa using hl) (fun z hz => h1 z (by simp [hz]))
        (fun z hz => h2 z (by simp [hz])) this]

/-! ### bit streams -/

/-- value of a bit stream -/
def num : List Bool → Nat
  | [] => 0
  | b :: l => b.toNat + 2 * num l

theorem num_append (l₁ l₂ : List Bool) : num (l₁ ++ l₂) = num l₁ + 2 ^ l₁.length * num l₂ := by
  induction l₁ with
  | nil => simp [num]
  | cons x l ih => simp [num, ih, pow_succ]; ring

theorem num_inj (l₁ l₂ : List Bool) (hl : l₁.length = l₂.length) (h : num l₁ = num l₂) :
    l₁ = l₂ := by
  induction l₁ generalizing l₂ with
  | nil => exact (List.length_eq_zero_iff.mp hl.symm).symm
  | cons x l₁ ih =>
    cases l₂ with
    | nil => simp at hl
    | cons y l₂ =>
      simp only [num] at h
      have hxy : x = y := by
        cases x <;> cases y <;> simp at h ⊢ <;> omega
      subst hxy
      rw [ih l₂ (by simpa using hl) (by omega)]

theorem length_bitsOf (s w x : Nat) : (bitsOf s w x).length = w := by simp [bitsOf]

theorem num_bitsOf (s w x : Nat) : num (bitsOf s w x) = (x >>> s) % 2 ^ w := by
  induction w generalizing s with
  | zero => simp [bitsOf, num, Nat.mod_one]
  | succ w ih =>
    have e : bitsOf s (w + 1) x = x.testBit s :: bitsOf (s + 1) w x := by
      unfold bitsOf
      rw [List.range_succ_eq_map, List.map_cons, List.map_map]
      simp only [Nat.add_zero, List.cons.injEq, true_and]
      apply List.map_congr_left
      intro t _
      simp only [Function.comp]
      congr 1; omega
    rw [e]
    simp only [num, ih]
    rw [pow_succ, Nat.mul_comm (2 ^ w), Nat.mod_mul, Nat.testBit_eq_decide_div_mod_eq]
    rw [Nat.shiftRight_eq_div_pow, Nat.shiftRight_eq_div_pow, pow_succ, Nat.div_div_eq_div_mul]
    congr 1
    have := Nat.mod_two_eq_zero_or_one (x / 2 ^ s)
    rcases this with h | h <;> simp [h]

theorem num_flatMap (s w : Nat) (a : List Nat) :
    num (a.flatMap (bitsOf s w)) = gval w (a.map fun x => (x >>> s) % 2 ^ w) := by
  induction a with
  | nil => rfl
  | cons x a ih =>
    rw [List.flatMap_cons, num_append, length_bitsOf, num_bitsOf, ih]
    rfl

theorem length_flatMap_bitsOf (s w : Nat) (a : List Nat) :
    (a.flatMap (bitsOf s w)).length = a.length * w := by
  induction a with
  | nil => simp
  | cons x a ih => simp [ih, length_bitsOf]; ring

theorem num_layout (s : Nat) (ws a : List Nat) :
    num (layout s ws a) = flatVal a.length ws (fieldsAt s ws a) := by
  induction ws generalizing s with
  | nil => rfl
  | cons w ws ih =>
    simp only [layout, fieldsAt, flatVal]
    rw [num_append, num_flatMap, length_flatMap_bitsOf, ih]

theorem length_layout (s : Nat) (ws a : List Nat) :
    (layout s ws a).length = a.length * ws.sum := by
  induction ws generalizing s with
  | nil => simp [layout]
  | cons w ws ih =>
    simp only [layout, List.length_append, length_flatMap_bitsOf, ih, List.sum_cons]
    ring

theorem num_stream (bw : Nat) (b : List Nat) (hb : Fits bw b) : num (stream bw b) = val bw b := by
  unfold stream
  rw [num_flatMap]
  induction b with
  | nil => rfl
  | cons x b ih =>
    simp only [List.map_cons, gval, val]
    rw [ih (fun y hy => hb y (by simp [hy])), Nat.shiftRight_zero,
      Nat.mod_eq_of_lt (hb x (by simp))]

end Verif.Multishuffle
