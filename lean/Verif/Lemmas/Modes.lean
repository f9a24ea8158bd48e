import Verif.Model.Modes
import Mathlib.Tactic.Ring
import Mathlib.Tactic.Linarith
import Mathlib.Data.List.Nodup

namespace Verif.Modes

theorem LMRange_empty {a b : Int} (h : b < a) : LMRange a b = [] := by
  unfold LMRange; rw [pyRange_empty (by omega)]; rfl

theorem LMRange_snoc {a b : Int} (h : a ≤ b + 1) :
    LMRange a (b + 1) = LMRange a b ++ (pyRange (-(b + 1)) (b + 1 + 1)).map fun m => (b + 1, m) := by
  unfold LMRange
  rw [pyRange_snoc h, List.flatMap_append]
  simp

/-- The positions of the listed modes are `0, 1, 2, ...`. -/
theorem map_index_LMRange (a : Int) (ha : 0 ≤ a) (k : Nat) :
    (LMRange a (a + k - 1)).map (fun p => lmIndex p.1 p.2 a) = pyRange 0 ((a + k) ^ 2 - a ^ 2) := by
  induction k with
  | zero => rw [LMRange_empty (by omega)]; simp [pyRange]
  | succ k ih =>
    have e : a + ((k + 1 : Nat) : Int) - 1 = (a + k - 1) + 1 := by omega
    rw [e, LMRange_snoc (by omega), List.map_append, ih, List.map_map]
    have : (fun p : Int × Int => lmIndex p.1 p.2 a) ∘ (fun m => (a + k - 1 + 1, m)) =
        fun m => m + ((a + k) * (a + k + 1) - a ^ 2) := by
      funext m; simp only [Function.comp, lmIndex]; ring
    rw [this, pyRange_map_add]
    rw [show -(a + (k : Int) - 1 + 1) + ((a + k) * (a + k + 1) - a ^ 2) = (a + k) ^ 2 - a ^ 2 by ring,
      show a + (k : Int) - 1 + 1 + 1 + ((a + k) * (a + k + 1) - a ^ 2) =
        (a + ((k + 1 : Nat) : Int)) ^ 2 - a ^ 2 by push_cast; ring]
    apply pyRange_append
    · nlinarith
    · push_cast; nlinarith

theorem mem_LMRange {a b ell m : Int} :
    (ell, m) ∈ LMRange a b ↔ (a ≤ ell ∧ ell ≤ b) ∧ (-ell ≤ m ∧ m ≤ ell) := by
  unfold LMRange
  simp only [List.mem_flatMap, List.mem_map, mem_pyRange, Prod.mk.injEq]
  constructor
  · rintro ⟨e, h1, m', h2, rfl, rfl⟩; omega
  · rintro ⟨h1, h2⟩; exact ⟨ell, by omega, m, by omega, rfl, rfl⟩

theorem lmIndex_block {ell m : Int} (a : Int) (h : -ell ≤ m ∧ m ≤ ell) :
    ell ^ 2 - a ^ 2 ≤ lmIndex ell m a ∧ lmIndex ell m a < (ell + 1) ^ 2 - a ^ 2 := by
  unfold lmIndex
  constructor <;> nlinarith [h.1, h.2]

theorem lmIndex_inj {ell m ell' m' a : Int} (h : -ell ≤ m ∧ m ≤ ell) (h' : -ell' ≤ m' ∧ m' ≤ ell')
    (he : lmIndex ell m a = lmIndex ell' m' a) : ell = ell' ∧ m = m' := by
  have b1 := lmIndex_block a h
  have b2 := lmIndex_block a h'
  have key : ell = ell' := by
    rcases lt_trichotomy ell ell' with hl | hl | hl
    · exfalso
      have : (ell + 1) ^ 2 ≤ ell' ^ 2 := by nlinarith
      omega
    · exact hl
    · exfalso
      have : (ell' + 1) ^ 2 ≤ ell ^ 2 := by nlinarith
      omega
  subst key
  refine ⟨rfl, ?_⟩
  unfold lmIndex at he; omega

variable {K : Type}

@[simp] theorem Row.set_self (row : Row K) (i : Int) (v : K) : row.set i v i = v := by
  simp [Row.set]

theorem Row.set_ne (row : Row K) {i j : Int} (v : K) (h : j ≠ i) : row.set i v j = row j := by
  simp [Row.set, h]

theorem Row.assign_not_mem (row : Row K) (idx : List Int) (vals : List K) (j : Int)
    (h : j ∉ idx) : row.assign idx vals j = row j := by
  unfold Row.assign
  induction idx generalizing row vals with
  | nil => simp
  | cons i idx ih =>
    cases vals with
    | nil => simp
    | cons v vals =>
      simp only [List.zip_cons_cons, List.foldl_cons]
      rw [ih _ _ (fun hm => h (by simp [hm])), Row.set_ne _ _ (fun he => h (by simp [he]))]

/-- Assigning `f 0, f 1, ...` to distinct columns. -/
theorem Row.assign_getElem (row : Row K) (idx : List Int) (vals : List K) (hn : idx.Nodup)
    (hl : idx.length = vals.length) (k : Nat) (i : Int) (v : K) (hi : idx[k]? = some i)
    (hv : vals[k]? = some v) : row.assign idx vals i = v := by
  unfold Row.assign
  induction idx generalizing row vals k with
  | nil => simp at hi
  | cons i0 idx ih =>
    cases vals with
    | nil => simp at hv
    | cons v0 vals =>
      simp only [List.zip_cons_cons, List.foldl_cons]
      obtain ⟨h1, h2⟩ := List.nodup_cons.mp hn
      cases k with
      | zero =>
        simp at hi hv; subst hi; subst hv
        have := Row.assign_not_mem (row.set i0 v0) idx vals i0 h1
        unfold Row.assign at this
        rw [this]; simp
      | succ k =>
        exact ih _ vals h2 (by simpa using hl) k (by simpa using hi) (by simpa using hv)

/-- Columns and values both given by a function of a list of labels. -/
theorem Row.assign_map {ι : Type} (row : Row K) (L : List ι) (f : ι → Int) (g : ι → K)
    (hinj : ∀ x ∈ L, ∀ y ∈ L, f x = f y → x = y) (hn : L.Nodup) (x : ι) (hx : x ∈ L) :
    row.assign (L.map f) (L.map g) (f x) = g x := by
  obtain ⟨k, hk, rfl⟩ := List.mem_iff_getElem.mp hx
  apply Row.assign_getElem (k := k)
  · exact (List.nodup_map_iff_inj_on hn).mpr (by
      intro x hx y hy h; exact hinj x hx y hy h)
  · simp
  · simp [hk]
  · simp [hk]

end Verif.Modes
