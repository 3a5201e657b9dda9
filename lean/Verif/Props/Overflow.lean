import Verif.Props.Sources

/-!
# Detection after sep's pixel buffer has overflowed (C102)
-/

namespace PI
open PyS

/-- `sep.extract` finds `cat` unless it needs more pixels than the stack holds. -/
def Buffered (e : Env) (err : PyErr) (need : ℚ → ℕ → ℕ) (cat : ℚ → ℕ → List SepRow) : Prop :=
  ∀ th m p, e.extract th m p = if need th m ≤ p then .ok (cat th m) else .error err

/-- C102: at first glance at an image with enough sources: the default threshold if its pixels fit into
sep's buffer as it is, four times as high a threshold otherwise, and the buffer stays enlarged. -/
theorem detect_buffered (e : Env) (s : SIState) (err : PyErr) (need : ℚ → ℕ → ℕ) (cat : ℚ → ℕ → List SepRow)
    (hx : Buffered e err need cat) (h35 : need (35 * e.rms) 9 ≤ 3600000)
    (hm8 : s.minSources.getD 20 ≤ (cat (8 * e.rms) 9).length) (hm35 : s.minSources.getD 20 ≤ (cat (35 * e.rms) 9).length) :
    detect e s = if need (8 * e.rms) 9 ≤ s.pixstack then (.ok (cat (8 * e.rms) 9), s)
      else (.ok (cat (35 * e.rms) 9), { s with pixstack := 3600000 }) := by
  rw [detect_eq]
  change s.minSrc ≤ _ at hm8
  change s.minSrc ≤ _ at hm35
  by_cases h8 : need (8 * e.rms) 9 ≤ s.pixstack
  · have h1 : rungOne e s = (.ok (cat (8 * e.rms) 9), s) := by
      unfold rungOne; rw [hx, if_pos h8]
    rw [h1, if_pos h8]
    simp only
    rw [if_neg (by omega)]
  · have h1 : rungOne e s = (.ok (cat (35 * e.rms) 9), { s with pixstack := 3600000 }) := by
      unfold rungOne
      rw [hx, if_neg h8]
      simp only
      rw [hx, if_pos h35]
    rw [h1, if_neg h8]
    simp only
    rw [if_neg (not_lt.2 hm35)]

/-- C102: so the catalogue of an image that overflows the buffer, but not the enlarged one, is made with
the high threshold, and `update_sources()` on the unchanged image then makes one with the default
threshold. -/
theorem redetect_lowers_threshold (e : Env) (s : SIState) (err : PyErr) (need : ℚ → ℕ → ℕ)
    (cat : ℚ → ℕ → List SepRow) (hx : Buffered e err need cat) (h35 : need (35 * e.rms) 9 ≤ 3600000)
    (hm8 : s.minSources.getD 20 ≤ (cat (8 * e.rms) 9).length) (hm35 : s.minSources.getD 20 ≤ (cat (35 * e.rms) 9).length)
    (h2 : 2 ≤ (cat (8 * e.rms) 9).length) (h2' : 2 ≤ (cat (35 * e.rms) 9).length)
    (hs : s.best = none) (hlo : s.pixstack < need (8 * e.rms) 9) (hhi : need (8 * e.rms) 9 ≤ 3600000) :
    ∃ t, bestSources e s = (.ok (limitSources e (cat (35 * e.rms) 9)), t) ∧
      ∀ n, ∃ u, updateSources e none { t with nSources := some n } = (.ok (), u) ∧
        bestSources e u = (.ok (limitSources e (cat (8 * e.rms) 9)), u) := by
  have hd := detect_buffered e s err need cat hx h35 hm8 hm35
  rw [if_neg (by omega)] at hd
  refine ⟨_, best_sources_returns e s _ _ hs hd h2', fun n => ?_⟩
  have hd' := detect_buffered e { s with pixstack := 3600000, nSources := some n } err need cat hx h35 hm8 hm35
  rw [if_pos hhi] at hd'
  have hb := best_sources_returns e { s with pixstack := 3600000, nSources := some n } _ _ hs hd' h2
  have hself : ({ s with pixstack := 3600000, nSources := some n, best := none } : SIState) =
      { s with pixstack := 3600000, nSources := some n } := by rw [hs]
  have hb' := hself ▸ hb
  obtain ⟨h1, _, _, _, h3⟩ := update_sources_redetect e
    { s with pixstack := 3600000, nSources := some n, best := some (limitSources e (cat (35 * e.rms) 9)) }
    _ n rfl rfl _ _ hb'
  exact ⟨_, h1, bestSources_cached e _ _ h3⟩

/-- C102: the setting belongs to the process: after any image has enlarged the buffer, every other image
that fits into it is searched with the default threshold, whether it would have overflowed or not. -/
theorem overflow_elsewhere (e : Env) (s : SIState) (err : PyErr) (need : ℚ → ℕ → ℕ)
    (cat : ℚ → ℕ → List SepRow) (hx : Buffered e err need cat) (hm8 : s.minSources.getD 20 ≤ (cat (8 * e.rms) 9).length)
    (hhi : need (8 * e.rms) 9 ≤ 3600000) (hp : s.pixstack = 3600000) :
    detect e s = (.ok (cat (8 * e.rms) 9), s) :=
  ladder_keeps_enough e s _ (by rw [hx, if_pos (by omega)]) hm8

/-- An image of which 8 times the noise selects a million pixels, with 30 stars, 25 of them bright. -/
def crowdedEnv : Env where
  rms := 1
  extract := fun th _ p => if (if th < 30 then 1000000 else 100000) ≤ p then
    .ok (List.replicate (if th < 30 then 30 else 25) ⟨5, 5, 9, 100, 0⟩) else .error .ValueError
  clippedMean := 0
  clippedStd := 1
  choice := fun _ k => List.range k
  interp := .error .ValueError
  locmax := fun _ => []

/-- It meets the hypotheses with the state of a new object. -/
example : Buffered crowdedEnv .ValueError (fun th _ => if th < 30 then 1000000 else 100000)
    (fun th _ => List.replicate (if th < 30 then 30 else 25) ⟨5, 5, 9, 100, 0⟩) ∧
    (detect crowdedEnv {}).1.map List.length = .ok 25 ∧
    (detect crowdedEnv (detect crowdedEnv {}).2).1.map List.length = .ok 30 := by
  refine ⟨fun _ _ _ => rfl, ?_, ?_⟩ <;> decide +kernel

end PI
