import Verif.Lemmas.SetItems
import Mathlib.Tactic.Positivity
import Mathlib.Tactic.FieldSimp
import Mathlib.Tactic.Ring
import Mathlib.Analysis.Real.Sqrt
import Mathlib.Data.List.GetD

/-!
# Airy pattern, Sersic galaxies and delta sources (C68-C70, C72)
-/

namespace PI

theorem sq_add_sq_eq_zero (a b : ℝ) : a ^ 2 + b ^ 2 = 0 ↔ a = 0 ∧ b = 0 := by
  constructor
  · intro h
    have h1 := sq_nonneg a
    have h2 := sq_nonneg b
    exact ⟨pow_eq_zero_iff (two_ne_zero) |>.mp (by linarith), pow_eq_zero_iff (two_ne_zero) |>.mp (by linarith)⟩
  · rintro ⟨rfl, rfl⟩; ring

/-- C68: a pixel of the Airy pattern is NaN exactly if it is the centre of an array of odd size. -/
theorem airy_nan_iff (j1 : ℝ → ℝ) (N : ℕ) (width : ℝ) (hw : width ≠ 0) (r c : ℕ) :
    (airyPatron j1 N width).px r c = none ↔ N = 2 * r + 1 ∧ c = r := by
  show airyFunc j1 _ width = none ↔ _
  unfold airyFunc
  simp only []
  have h0 : Real.sqrt (((r : ℝ) - ((N : ℝ) - 1) / 2) ^ 2 + ((c : ℝ) - ((N : ℝ) - 1) / 2) ^ 2) / width = 0 ↔
      N = 2 * r + 1 ∧ c = r := by
    rw [div_eq_zero_iff, or_iff_left hw, Real.sqrt_eq_zero (by positivity), sq_add_sq_eq_zero]
    constructor
    · rintro ⟨h1, h2⟩
      have e1 : (N : ℝ) = 2 * r + 1 := by linarith
      have e2 : (c : ℝ) = r := by linarith
      exact ⟨by exact_mod_cast e1, by exact_mod_cast e2⟩
    · rintro ⟨rfl, rfl⟩
      constructor <;> push_cast <;> ring
  split
  · rename_i h; exact ⟨fun _ => h0.mp h, fun _ => rfl⟩
  · rename_i h; exact ⟨fun e => (by cases e), fun e => absurd (h0.mpr e) h⟩

/-- C68: even sizes have no NaN; every value is a square. -/
theorem airy_even (j1 : ℝ → ℝ) (k : ℕ) (width : ℝ) (hw : width ≠ 0) (r c : ℕ) :
    ∃ v ≥ 0, (airyPatron j1 (2 * k) width).px r c = some v := by
  cases h : (airyPatron j1 (2 * k) width).px r c with
  | none => have := (airy_nan_iff j1 (2 * k) width hw r c).mp h; omega
  | some v =>
    refine ⟨v, ?_, rfl⟩
    change airyFunc j1 _ width = some v at h
    unfold airyFunc at h
    simp only [] at h
    split at h
    · cases h
    · cases h; positivity

/-- C68: the pattern is symmetric about the diagonal and under reflection of either axis. -/
theorem airy_symm (j1 : ℝ → ℝ) (N : ℕ) (width : ℝ) (r c : ℕ) :
    (airyPatron j1 N width).px r c = (airyPatron j1 N width).px c r ∧
    (r < N → (airyPatron j1 N width).px (N - 1 - r) c = (airyPatron j1 N width).px r c) := by
  refine ⟨?_, fun hr => ?_⟩
  · show airyFunc j1 _ width = airyFunc j1 _ width
    rw [add_comm]
  · show airyFunc j1 _ width = airyFunc j1 _ width
    have : (((N - 1 - r : ℕ) : ℝ) - ((N : ℝ) - 1) / 2) ^ 2 = ((r : ℝ) - ((N : ℝ) - 1) / 2) ^ 2 := by
      rw [Nat.cast_sub (by omega), Nat.cast_sub (by omega)]; push_cast; ring
    rw [this]

example (j1 : ℝ → ℝ) : (airyPatron j1 5 3).px 2 2 = none :=
  (airy_nan_iff j1 5 3 (by norm_num) 2 2).mpr (by omega)

/-- C69: the profile is an exponential of a power of the scaled radius; the intensity argument drops out. -/
theorem sersic_eq (re Ie n r : ℝ) (hI : Ie ≠ 0) (hn : 0 < n) :
    perfilSersic re Ie n r = Real.exp (-(1999 / 1000 * n - 327 / 1000) * (r / re) ^ (1 / n)) := by
  unfold perfilSersic
  simp only []
  have h1 : ((0 : ℝ) / re) ^ (1 / n) = 0 := by
    rw [zero_div]; exact Real.zero_rpow (by positivity)
  rw [h1, mul_div_mul_left _ _ hI, ← Real.exp_sub]
  congr 1
  ring

/-- C69: independent of the intensity, positive, 1 at the centre. -/
theorem sersic_norm (re Ie Je n r : ℝ) (hI : Ie ≠ 0) (hJ : Je ≠ 0) (hn : 0 < n) :
    perfilSersic re Ie n r = perfilSersic re Je n r ∧ 0 < perfilSersic re Ie n r ∧
    perfilSersic re Ie n 0 = 1 := by
  rw [sersic_eq re Ie n r hI hn, sersic_eq re Je n r hJ hn, sersic_eq re Ie n 0 hI hn]
  refine ⟨rfl, Real.exp_pos _, ?_⟩
  rw [zero_div, Real.zero_rpow (by positivity), mul_zero, Real.exp_zero]

/-- C69: strictly decreasing with the radius exactly for `b > 0`, i.e. for `n > 0.327/1.999`. -/
theorem sersic_strictAnti_iff (re Ie n : ℝ) (hI : Ie ≠ 0) (hn : 0 < n) (hre : 0 < re) :
    (∀ r s, 0 ≤ r → r < s → perfilSersic re Ie n s < perfilSersic re Ie n r) ↔ 327 / 1999 < n := by
  constructor
  · intro h
    have h1 := h 0 re le_rfl hre
    rw [sersic_eq re Ie n re hI hn, sersic_eq re Ie n 0 hI hn, zero_div,
      Real.zero_rpow (by positivity), div_self hre.ne', Real.one_rpow, Real.exp_lt_exp] at h1
    linarith
  · intro hb r s hr hrs
    rw [sersic_eq re Ie n r hI hn, sersic_eq re Ie n s hI hn, Real.exp_lt_exp]
    have h2 : (r / re) ^ (1 / n) < (s / re) ^ (1 / n) :=
      Real.rpow_lt_rpow (by positivity) (by gcongr) (by positivity)
    nlinarith

/-- C69: and strictly increasing below that index. -/
theorem sersic_increasing (re Ie n : ℝ) (hI : Ie ≠ 0) (hn : 0 < n) (hre : 0 < re) (hb : n < 327 / 1999)
    (r s : ℝ) (hr : 0 ≤ r) (hrs : r < s) : perfilSersic re Ie n r < perfilSersic re Ie n s := by
  rw [sersic_eq re Ie n r hI hn, sersic_eq re Ie n s hI hn, Real.exp_lt_exp]
  have h2 : (r / re) ^ (1 / n) < (s / re) ^ (1 / n) :=
    Real.rpow_lt_rpow (by positivity) (by gcongr) (by positivity)
  nlinarith

/-- Distance test of `gal_sersic` in whole numbers. -/
theorem gal_radius_iff (N r c : ℕ) (hN : 1 ≤ N) :
    Real.sqrt (((r : ℝ) - ((N : ℝ) - 1) / 2) ^ 2 + ((c : ℝ) - ((N : ℝ) - 1) / 2) ^ 2) ≤ 4 * (((N : ℝ) - 1) / 6) ↔
      9 * ((2 * (r : ℤ) - (N - 1)) ^ 2 + (2 * (c : ℤ) - (N - 1)) ^ 2) ≤ 16 * ((N : ℤ) - 1) ^ 2 := by
  have h1 : (1 : ℝ) ≤ N := by exact_mod_cast hN
  rw [Real.sqrt_le_left (by linarith)]
  have : (9 * ((2 * (r : ℤ) - (N - 1)) ^ 2 + (2 * (c : ℤ) - (N - 1)) ^ 2) ≤ 16 * ((N : ℤ) - 1) ^ 2) ↔
      (9 * ((2 * (r : ℝ) - (N - 1)) ^ 2 + (2 * (c : ℝ) - (N - 1)) ^ 2) ≤ 16 * ((N : ℝ) - 1) ^ 2) := by
    exact_mod_cast Iff.rfl
  rw [this]
  constructor <;> intro h <;> nlinarith

/-- C70: the shape; pixels in the last row or column or beyond four scale radii are zero, the others hold the
profile at their distance from the centre. -/
theorem gal_sersic_px (N : ℕ) (n : ℝ) (hN : 1 ≤ N) (hn : 0 < n) (r c : ℕ) (hr : r < N) (hc : c < N) :
    (galSersic N n).h = N ∧ (galSersic N n).w = N ∧
    ((galSersic N n).px r c = 0 ↔ r = N - 1 ∨ c = N - 1 ∨
      16 * ((N : ℤ) - 1) ^ 2 < 9 * ((2 * (r : ℤ) - (N - 1)) ^ 2 + (2 * (c : ℤ) - (N - 1)) ^ 2)) ∧
    ((galSersic N n).px r c ≠ 0 → (galSersic N n).px r c =
      Real.exp (-(1999 / 1000 * n - 327 / 1000) *
        (6 * Real.sqrt (((r : ℝ) - ((N : ℝ) - 1) / 2) ^ 2 + ((c : ℝ) - ((N : ℝ) - 1) / 2) ^ 2) / (N - 1)) ^ (1 / n))) := by
  have hg := gal_radius_iff N r c hN
  have hpx : (galSersic N n).px r c = if r < N - 1 ∧ c < N - 1 then
      (if Real.sqrt (((r : ℝ) - ((N : ℝ) - 1) / 2) ^ 2 + ((c : ℝ) - ((N : ℝ) - 1) / 2) ^ 2) ≤ 4 * (((N : ℝ) - 1) / 6)
        then perfilSersic (((N : ℝ) - 1) / 6) 10 n
          (Real.sqrt (((r : ℝ) - ((N : ℝ) - 1) / 2) ^ 2 + ((c : ℝ) - ((N : ℝ) - 1) / 2) ^ 2)) else 0) else 0 := rfl
  rw [hpx]
  refine ⟨rfl, rfl, ?_⟩
  by_cases h1 : r < N - 1 ∧ c < N - 1
  · rw [if_pos h1]
    by_cases h2 : Real.sqrt (((r : ℝ) - ((N : ℝ) - 1) / 2) ^ 2 + ((c : ℝ) - ((N : ℝ) - 1) / 2) ^ 2)
        ≤ 4 * (((N : ℝ) - 1) / 6)
    · have h2' := hg.mp h2
      rw [if_pos h2, sersic_eq _ _ _ _ (by norm_num) hn]
      refine ⟨⟨fun h => absurd h (Real.exp_pos _).ne', fun h => ?_⟩, fun _ => ?_⟩
      · rcases h with h | h | h <;> omega
      · congr 3
        rw [div_div_eq_mul_div, mul_comm]
    · have h2' := mt hg.mpr h2
      rw [if_neg h2]
      exact ⟨⟨fun _ => .inr (.inr (by omega)), fun _ => rfl⟩, fun h => absurd rfl h⟩
  · rw [if_neg h1]
    refine ⟨⟨fun _ => by omega, fun _ => rfl⟩, fun h => absurd rfl h⟩

/-- C70: the galaxy is not symmetric: for every size from 3 on some pixel of the first row is not zero while its
mirror image in the last row is. -/
theorem gal_sersic_asymmetric (N : ℕ) (n : ℝ) (hN : 3 ≤ N) (hn : 0 < n) :
    (galSersic N n).px 0 ((N - 1) / 2) ≠ 0 ∧ (galSersic N n).px (N - 1) ((N - 1) / 2) = 0 := by
  constructor
  · rw [Ne, (gal_sersic_px N n (by omega) hn 0 ((N - 1) / 2) (by omega) (by omega)).2.2.1]
    rintro (h | h | h)
    · omega
    · omega
    · obtain ⟨m, rfl⟩ : ∃ m, N = m + 1 := ⟨N - 1, by omega⟩
      have hd : (2 * (((m + 1 - 1) / 2 : ℕ) : ℤ) - (((m + 1 : ℕ) : ℤ) - 1)) ^ 2 ≤ 1 := by
        have h3 : -1 ≤ 2 * (((m + 1 - 1) / 2 : ℕ) : ℤ) - (((m + 1 : ℕ) : ℤ) - 1) := by omega
        have h4 : 2 * (((m + 1 - 1) / 2 : ℕ) : ℤ) - (((m + 1 : ℕ) : ℤ) - 1) ≤ 0 := by omega
        nlinarith
      push_cast at h hd
      have h5 : (2 : ℤ) ≤ m := by omega
      nlinarith
  · exact ((gal_sersic_px N n (by omega) hn (N - 1) ((N - 1) / 2) (by omega) (by omega)).2.2.1).mpr (.inl rfl)

/-- C70: the four corners are always empty. -/
theorem gal_sersic_corner (N : ℕ) (n : ℝ) (hN : 1 ≤ N) (hn : 0 < n) : (galSersic N n).px 0 0 = 0 := by
  refine ((gal_sersic_px N n hN hn 0 0 (by omega) (by omega)).2.2.1).mpr ?_
  by_cases h : N = 1
  · left; omega
  · right; right
    have : (1 : ℤ) ≤ N - 1 := by omega
    push_cast
    nlinarith

/-! ## delta_point -/

/-- A point falls on pixel `(r, c)` of an `N`×`N` array: its truncated coordinates, counted from the start or
from the end, are `r` and `c`. -/
def hits (N : ℕ) (p : ℚ × ℚ) (r c : ℕ) : Prop :=
  (pyInt p.1 = r ∨ pyInt p.1 = (r : ℤ) - N) ∧ (pyInt p.2 = c ∨ pyInt p.2 = (c : ℤ) - N)

/-- A point lies in the array. -/
def inArr (N : ℕ) (p : ℚ × ℚ) : Prop :=
  (-(N : ℤ) ≤ pyInt p.1 ∧ pyInt p.1 < N) ∧ (-(N : ℤ) ≤ pyInt p.2 ∧ pyInt p.2 < N)

theorem hits_iff (N : ℕ) (p : ℚ × ℚ) (r c : ℕ) (hr : r < N) (hc : c < N) :
    hits N p r c ↔ pyIdx N (pyInt p.1) = some r ∧ pyIdx N (pyInt p.2) = some c := by
  rw [pyIdx_iff, pyIdx_iff]; unfold hits; omega

theorem deltaLoop_ok (N : ℕ) (w : List ℚ) (l : List (ℚ × ℚ)) :
    ∀ (m : Img ℚ) (s : ℕ), m.h = N → m.w = N → s + l.length ≤ w.length → (∀ p ∈ l, inArr N p) →
    ∃ m', deltaLoop w m (-1 - s) l = .ok m' ∧ m'.h = N ∧ m'.w = N ∧ ∀ r < N, ∀ c < N,
      ((∀ p ∈ l, ¬ hits N p r c) → m'.px r c = m.px r c) ∧
      ∀ (i : ℕ) p, l[i]? = some p → hits N p r c → (∀ i' : ℕ, i < i' → ∀ p', l[i']? = some p' → ¬ hits N p' r c) →
        m'.px r c = w.getD (w.length - 1 - (s + i)) 0 := by
  induction l with
  | nil =>
    intro m s hh hw _ _
    exact ⟨m, rfl, hh, hw, fun r _ c _ => ⟨fun _ => rfl, fun i p h => by simp at h⟩⟩
  | cons q l ih =>
    intro m s hh hw hlen hin
    rw [List.length_cons] at hlen
    have hk : pyIdx w.length (-1 - (s : ℤ)) = some (w.length - 1 - s) := by
      rw [pyIdx_iff]; omega
    obtain ⟨hx, hy⟩ := hin q List.mem_cons_self
    obtain ⟨a, ha⟩ := Option.isSome_iff_exists.mp ((pyIdx_isSome N (pyInt q.1)).mpr hx)
    obtain ⟨b, hb⟩ := Option.isSome_iff_exists.mp ((pyIdx_isSome N (pyInt q.2)).mpr hy)
    obtain ⟨m', he, h1, h2, hpx⟩ := ih ⟨m.h, m.w, fun r c => if r = a ∧ c = b then w.getD (w.length - 1 - s) 0
      else m.px r c⟩ (s + 1) hh hw (by omega) fun p hp => hin p (List.mem_cons_of_mem _ hp)
    refine ⟨m', ?_, h1, h2, fun r hr c hc => ?_⟩
    · unfold deltaLoop
      rw [hk]
      simp only []
      rw [setItem_ok m _ _ _ a b (by rw [hh]; exact ha) (by rw [hw]; exact hb),
        show -1 - (s : ℤ) - 1 = -1 - ((s + 1 : ℕ) : ℤ) by push_cast; ring]
      exact he
    · have hq : hits N q r c ↔ r = a ∧ c = b := by
        rw [hits_iff N q r c hr hc, ha, hb, Option.some.injEq, Option.some.injEq]
        constructor <;> rintro ⟨rfl, rfl⟩ <;> exact ⟨rfl, rfl⟩
      refine ⟨fun hno => ?_, fun i p hi hp hlast => ?_⟩
      · rw [(hpx r hr c hc).1 fun p hp => hno p (List.mem_cons_of_mem _ hp)]
        exact if_neg (mt hq.mpr (hno q List.mem_cons_self))
      · cases i with
        | zero =>
          rw [List.getElem?_cons_zero, Option.some.injEq] at hi
          subst hi
          rw [(hpx r hr c hc).1 ?_]
          · exact if_pos (hq.mp hp)
          · intro p hp'
            obtain ⟨k, hk'⟩ := List.mem_iff_getElem?.mp hp'
            exact hlast (k + 1) (by omega) p (by simpa using hk')
        | succ i =>
          rw [List.getElem?_cons_succ] at hi
          rw [(hpx r hr c hc).2 i p hi hp fun i' hi' p' hp' => hlast (i' + 1) (by omega) p' (by simpa using hp')]
          congr 1
          omega

theorem deltaLoop_err (N : ℕ) (w : List ℚ) (l : List (ℚ × ℚ)) :
    ∀ (m : Img ℚ) (s : ℕ), m.h = N → m.w = N → (w.length < s + l.length ∧ l ≠ [] ∨ ∃ p ∈ l, ¬ inArr N p) →
    deltaLoop w m (-1 - s) l = .error .IndexError := by
  induction l with
  | nil =>
    rintro m s - - (⟨-, h⟩ | ⟨p, hp, -⟩)
    · exact absurd rfl h
    · cases hp
  | cons q l ih =>
    intro m s hh hw h
    unfold deltaLoop
    cases hk : pyIdx w.length (-1 - (s : ℤ)) with
    | none => rfl
    | some k =>
      have hk' := (pyIdx_iff _ _ _).mp hk
      simp only []
      unfold setItem
      rw [hh, hw]
      cases ha : pyIdx N (pyInt q.1) with
      | none => rfl
      | some a =>
        cases hb : pyIdx N (pyInt q.2) with
        | none => rfl
        | some b =>
          have ha' := (pyIdx_isSome N (pyInt q.1)).mp (by rw [ha]; rfl)
          have hb' := (pyIdx_isSome N (pyInt q.2)).mp (by rw [hb]; rfl)
          show deltaLoop w ⟨N, N, _⟩ _ l = _
          rw [show -1 - (s : ℤ) - 1 = -1 - ((s + 1 : ℕ) : ℤ) by push_cast; ring]
          refine ih ⟨N, N, _⟩ (s + 1) rfl rfl ?_
          rcases h with ⟨h, -⟩ | ⟨p, hp, hn⟩
          · left
            rw [List.length_cons] at h
            refine ⟨by omega, ?_⟩
            rintro rfl
            simp only [List.length_nil] at h
            omega
          · right
            rcases List.mem_cons.mp hp with rfl | hp
            · exact absurd ⟨ha', hb'⟩ hn
            · exact ⟨p, hp, hn⟩

/-- Weights that are used. -/
def effWeights (xy : XY) : Option (List ℚ) → List ℚ
  | some w => w
  | none => List.replicate xy.points.length 1

/-- A call that has the inputs it needs: a sequence, or an iterator with weights. -/
def usable (xy : XY) (weights : Option (List ℚ)) : Prop := weights.isSome ∨ ∃ l, xy = .seq l

theorem deltaPoint_usable (N : ℕ) (xy : XY) (weights : Option (List ℚ)) (h : usable xy weights) :
    deltaPoint N false (some xy) weights =
      deltaLoop (effWeights xy weights) ⟨N, N, fun _ _ => 0⟩ (-1 - (0 : ℕ)) xy.points := by
  cases weights with
  | some w => cases xy <;> rfl
  | none =>
    rcases h with h | ⟨l, rfl⟩
    · cases h
    · rfl

/-- C72: with enough weights and all points in the array, each pixel holds the weight of the last point that
falls on it, the weights being taken from the end; other pixels are zero. -/
theorem delta_point_ok (N : ℕ) (xy : XY) (weights : Option (List ℚ)) (h : usable xy weights)
    (hlen : xy.points.length ≤ (effWeights xy weights).length) (hin : ∀ p ∈ xy.points, inArr N p) :
    ∃ m, deltaPoint N false (some xy) weights = .ok m ∧ m.h = N ∧ m.w = N ∧ ∀ r < N, ∀ c < N,
      ((∀ p ∈ xy.points, ¬ hits N p r c) → m.px r c = 0) ∧
      ∀ (i : ℕ) p, xy.points[i]? = some p → hits N p r c →
        (∀ i' : ℕ, i < i' → ∀ p', xy.points[i']? = some p' → ¬ hits N p' r c) →
        m.px r c = (effWeights xy weights).getD ((effWeights xy weights).length - 1 - i) 0 := by
  rw [deltaPoint_usable N xy weights h]
  obtain ⟨m, h1, h2, h3, h4⟩ := deltaLoop_ok N (effWeights xy weights) xy.points ⟨N, N, fun _ _ => 0⟩ 0 rfl rfl
    (by omega) hin
  refine ⟨m, h1, h2, h3, fun r hr c hc => ⟨(h4 r hr c hc).1, fun i p hi hp hl => ?_⟩⟩
  rw [(h4 r hr c hc).2 i p hi hp hl, Nat.zero_add]

/-- C72: too few weights or a point outside the array raise IndexError. -/
theorem delta_point_err (N : ℕ) (xy : XY) (weights : Option (List ℚ)) (h : usable xy weights)
    (hbad : (effWeights xy weights).length < xy.points.length ∨ ∃ p ∈ xy.points, ¬ inArr N p) :
    deltaPoint N false (some xy) weights = .error .IndexError := by
  rw [deltaPoint_usable N xy weights h]
  refine deltaLoop_err N _ _ ⟨N, N, fun _ _ => 0⟩ 0 rfl rfl ?_
  rcases hbad with hb | hb
  · left
    refine ⟨by omega, ?_⟩
    intro hc; rw [hc] at hb; simp at hb
  · exact .inr hb

/-- C72: an iterator such as `zip(x, y)`, the call of the function's own documentation, fails without weights;
so does no list at all. -/
theorem delta_point_type_error (N : ℕ) (l : List (ℚ × ℚ)) (w : Option (List ℚ)) :
    deltaPoint N false (some (.iter l)) none = .error .TypeError ∧
    deltaPoint N false none w = .error .TypeError := by
  constructor
  · rfl
  · cases w <;> rfl

/-- C72: the default puts a single 1 in the middle and ignores the other arguments. -/
theorem delta_point_center (N : ℕ) (xy : Option XY) (weights : Option (List ℚ)) :
    deltaPoint N true xy weights = if N = 0 then .error .IndexError
      else .ok ⟨N, N, fun r c => if r = N / 2 ∧ c = N / 2 then 1 else 0⟩ := by
  have hi : pyInt ((N : ℚ) / 2) = ((N / 2 : ℕ) : ℤ) := by
    unfold pyInt
    rw [if_pos (by positivity)]
    have := Rat.floor_natCast_div_natCast N 2
    push_cast at this
    rw [this]; push_cast; rfl
  unfold deltaPoint
  simp only [if_true, hi]
  by_cases h : N = 0
  · rw [if_pos h]; subst h; rfl
  · rw [if_neg h]
    have hp : pyIdx N ((N / 2 : ℕ) : ℤ) = some (N / 2) := by rw [pyIdx_iff]; omega
    exact setItem_ok _ _ _ _ _ _ hp hp

/-- Two points on one pixel: the last point wins, with the first weight. -/
example : ∃ m, deltaPoint 3 false (some (.seq [(1, 1), (1, -2)])) (some [7, 5]) = .ok m ∧ m.px 1 1 = 7 := by
  have e1 : pyInt (1 : ℚ) = 1 := by unfold pyInt; norm_num
  have e2 : pyInt (-2 : ℚ) = -2 := by unfold pyInt; norm_num
  obtain ⟨m, h1, -, -, h4⟩ := delta_point_ok 3 (.seq [(1, 1), (1, -2)]) (some [7, 5]) (.inl rfl) (by decide) (by
    intro p hp
    simp only [XY.points, List.mem_cons, List.not_mem_nil, or_false] at hp
    rcases hp with rfl | rfl <;> simp [inArr, e1, e2])
  refine ⟨m, h1, ?_⟩
  have := (h4 1 (by omega) 1 (by omega)).2 1 (1, -2) rfl (by simp [hits, e1, e2]) (by
    intro i' hi' p' hp'
    exfalso
    obtain ⟨k, rfl⟩ : ∃ k, i' = k + 2 := ⟨i' - 2, by omega⟩
    simp [XY.points] at hp')
  rw [this]; rfl

end PI
