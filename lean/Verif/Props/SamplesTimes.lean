import Verif.Props.Samples

/-!
# C78: the times of the sample waveforms
-/

namespace Verif.Props.SamplesTimes
open Verif.Samples Verif.Modes

theorem default_length : defaultTimes.length = 1101 := by
  unfold defaultTimes
  rw [List.length_map, List.length_range]

theorem default_get (k : Nat) (u : ℝ) : defaultTimes[k]? = some u ↔ k < 1101 ∧ u = -10 + (k : ℝ) / 10 := by
  unfold defaultTimes
  generalize (1101 : Nat) = n
  rw [List.getElem?_map]
  constructor
  · intro h
    obtain ⟨j, h1, h2⟩ := Option.map_eq_some_iff.1 h
    obtain ⟨h3, h4⟩ := List.getElem?_eq_some_iff.1 h1
    rw [List.getElem_range] at h4
    rw [List.length_range] at h3
    subst h4
    exact ⟨h3, h2.symm⟩
  · rintro ⟨h1, rfl⟩
    rw [List.getElem?_range h1]
    rfl

attribute [local irreducible] defaultTimes

/-- C78: the times of the waveform that has a single mode, and of the constant waveform, are -10, -9.9, and so on up to 100. -/
theorem sample_times (t : List ℝ) (h : (∃ ell m kw w, 2 ≤ ell ∧ ell ≤ 8 ∧ |m| ≤ ell ∧ singleMode ell m kw = .ok w ∧ w.t = t) ∨ ∃ kw w, constantWaveform kw = .ok w ∧ w.t = t) :
    t.length = 1101 ∧ t[0]? = some (-10 : ℝ) ∧ t[1100]? = some (100 : ℝ) ∧ ∀ (k : Nat) (u v : ℝ), t[k]? = some u → t[k + 1]? = some v → v = u + 1 / 10 := by
  have e : t = defaultTimes := by
    rcases h with ⟨ell, m, kw, w, h1, h2, h3, h4, h5⟩ | ⟨kw, w, h4, h5⟩
    · obtain ⟨w', e1, e2, -⟩ := Verif.Props.Samples.single_mode_spec ell m kw h1 h2 h3
      rw [← h5, ← e2, Except.ok.inj (h4.symm.trans e1)]
    · obtain ⟨w', e1, e2, -⟩ := Verif.Props.Samples.constant_spec kw
      rw [← h5, ← e2, Except.ok.inj (h4.symm.trans e1)]
  rw [e]
  refine ⟨default_length, (default_get 0 _).2 ⟨by norm_num, by norm_num⟩, (default_get 1100 _).2 ⟨by norm_num, by norm_num⟩, fun k u v hu hv => ?_⟩
  rw [((default_get _ _).1 hu).2, ((default_get _ _).1 hv).2]
  push_cast
  ring

/-- There are such waveforms. -/
example : ∃ kw w, constantWaveform kw = .ok w := by
  obtain ⟨w, h, -⟩ := Verif.Props.Samples.constant_spec {}
  exact ⟨_, w, h⟩

end Verif.Props.SamplesTimes
