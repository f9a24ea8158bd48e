import Verif.Props.Keywords

/-!
# C108: the arguments that are used when files are read
-/

namespace Verif.Props.KeywordsFiles
open Verif Verif.Keywords Verif.Spec.Keywords Verif.Props.Keywords

variable {V : Type}

/-- C108: `create_abd_from_h5` uses the name of the file for the format of SpECTRE, where it is required; for the other formats it uses the names of the files for all kinds of data. -/
theorem abd_files_used : Uses (createAbd (V := V) "spectrecce_v1") ["file_name"] ∧
    (∀ kw : Dict V, Proper kw → (∀ v, ("file_name", v) ∉ kw) → createAbd "spectrecce_v1" kw = .error .valueError) ∧
    (∀ format, format ≠ "spectrecce_v1" → Uses (createAbd (V := V) format) ["Psi4", "Psi3", "Psi2", "Psi1", "Psi0", "h"]) := by
  refine ⟨uses_popAll (ks := ["file_name"]) (fun kw c hc => ?_) (by decide), fun kw hp h => ?_, fun format hf => uses_popAll (ks := dataLabels) (fun kw c hc => ?_) (by decide)⟩
  · unfold createAbd at hc
    rw [if_pos rfl] at hc
    split at hc
    · cases hc; rfl
    · cases hc
  · unfold createAbd
    rw [if_pos rfl, if_neg]
    intro hs
    obtain ⟨v, hv⟩ := Option.isSome_iff_exists.1 hs
    exact h v ((lookup_mem hp _ v).1 hv)
  · unfold createAbd at hc
    rw [if_neg hf] at hc
    split at hc
    · cases hc
    · cases hc; rfl

/-- C108: files of a format that is not known are refused, and those of the known formats are not refused for the names of their arguments. -/
theorem abd_formats (kw : Dict V) (hp : Proper kw) (k : String) (v : V) (hk : k ∈ ["Psi4", "Psi3", "Psi2", "Psi1", "Psi0", "h"]) (hv : (k, v) ∈ kw) (format : String) (hf : format ≠ "spectrecce_v1") :
    (∃ c, createAbd format kw = .ok c) ↔ format ∈ ["sxs", "cce", "rpxmb", "rpxm", "rpdmb", "rpdm"] := by
  have hany : dataLabels.any (fun k => (kw.lookup k).isSome) = true := by
    rw [List.any_eq_true]
    exact ⟨k, hk, by rw [(lookup_mem hp k v).2 hv]; rfl⟩
  unfold createAbd
  rw [if_neg hf]
  by_cases h : format ∈ ["sxs", "cce", "rpxmb", "rpxm", "rpdmb", "rpdm"]
  · rw [if_neg (fun x => x.2 h)]
    exact ⟨fun _ => h, fun _ => ⟨_, rfl⟩⟩
  · rw [if_pos ⟨hany, h⟩]
    exact ⟨fun ⟨c, hc⟩ => by (cases hc), fun x => absurd x h⟩

/-- C108: `read_from_h5` uses an argument exactly if the file has no such attribute, and otherwise reports it. -/
theorem read_used (attrs : String → Bool) (kw : Dict V) (hp : Proper kw) (c : Call V) (hc : readH5 attrs kw = .ok c) (a k : String) (v : V)
    (ha : (a, k) ∈ [("FrameType", "frameType"), ("DataType", "dataType"), ("RIsScaledOut", "r_is_scaled_out"), ("MIsScaledOut", "m_is_scaled_out")]) (hv : (k, v) ∈ kw) :
    (attrs a = false → c.got k = some v) ∧ (attrs a = true → c.got k = none ∧ (k, v) ∈ c.warned) := by
  have key : ∃ ks : List String, (attrs a = false → k ∈ ks) ∧ (attrs a = true → k ∉ ks) ∧ c = warn (popAll (start kw) ks) := by
    refine ⟨(if attrs "FrameType" then [] else ["frameType"]) ++ (if attrs "DataType" then [] else ["dataType"]) ++ (if attrs "RIsScaledOut" then [] else ["r_is_scaled_out"]) ++
      (if attrs "MIsScaledOut" then [] else ["m_is_scaled_out"]), ?_, ?_, ?_⟩
    · simp only [List.mem_cons, Prod.mk.injEq, List.not_mem_nil, or_false] at ha
      rcases ha with ⟨rfl, rfl⟩ | ⟨rfl, rfl⟩ | ⟨rfl, rfl⟩ | ⟨rfl, rfl⟩ <;> intro h <;> simp [h]
    · simp only [List.mem_cons, Prod.mk.injEq, List.not_mem_nil, or_false] at ha
      rcases ha with ⟨rfl, rfl⟩ | ⟨rfl, rfl⟩ | ⟨rfl, rfl⟩ | ⟨rfl, rfl⟩ <;> intro h <;> simp only [h, if_true] <;>
        cases attrs "FrameType" <;> cases attrs "DataType" <;> cases attrs "RIsScaledOut" <;> cases attrs "MIsScaledOut" <;> decide
    · obtain rfl := (Except.ok.inj hc).symm
      simp only [List.foldl_cons, List.foldl_nil]
      cases attrs "FrameType" <;> cases attrs "DataType" <;> cases attrs "RIsScaledOut" <;> cases attrs "MIsScaledOut" <;> rfl
  obtain ⟨ks, h1, h2, rfl⟩ := key
  refine ⟨fun h => got_popAll ks (inv_start hp) k v (h1 h) hv, fun h => ?_⟩
  have hn : (popAll (start kw) ks).got k = none := (not_got_popAll ks (start kw) k (h2 h)).trans rfl
  refine ⟨hn, ?_⟩
  rcases ((inv_popAll ks (inv_start hp)).all k v).1 hv with h | h
  · rw [hn] at h
    cases h
  · exact h

/-- The hypotheses are met. -/
example : Proper [("Psi4", 1), ("h", 2)] ∧ ("h", 2) ∈ [("Psi4", 1), ("h", 2)] ∧ (∃ c, createAbd "sxs" [("Psi4", 1), ("h", 2)] = .ok c) ∧ ¬ ∃ c, createAbd "sxy" [("Psi4", 1), ("h", 2)] = .ok c := by
  have hp : Proper [("Psi4", 1), ("h", 2)] := by unfold Proper; decide
  exact ⟨hp, by decide, (abd_formats _ hp "h" 2 (by decide) (by decide) "sxs" (by decide)).2 (by decide), fun h => absurd ((abd_formats _ hp "h" 2 (by decide) (by decide) "sxy" (by decide)).1 h) (by decide)⟩

example : ∃ c, readH5 (fun a => a == "DataType") [("dataType", 1), ("frameType", 2)] = .ok c ∧ c.got "frameType" = some 2 ∧ c.got "dataType" = none := by
  have hp : Proper [("dataType", 1), ("frameType", 2)] := by unfold Proper; decide
  exact ⟨_, rfl, (read_used (fun a => a == "DataType") _ hp _ rfl "FrameType" "frameType" 2 (by decide) (by decide)).1 (by decide), ((read_used (fun a => a == "DataType") _ hp _ rfl "DataType" "dataType" 1 (by decide) (by decide)).2 (by decide)).1⟩

end Verif.Props.KeywordsFiles
