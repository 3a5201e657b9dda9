import Verif.Props.PsfStamp

/-!
# Property C144: turning both images by half a turn

`np.rot90(a, 2)` of every array (pixels, masks, PSF stamps, backgrounds) turns D and the mask and reflects P. The score does
not always follow: its denominator is reflected about another point.
-/

namespace PI

open Complex Finset

/-- `a[::-1, ::-1]` -/
def Img.turned {α : Type*} (a : Img α) : Img α := ⟨a.h, a.w, fun i j => a.px (a.h - 1 - i) (a.w - 1 - j)⟩

/-- `m - i` on the circle of `n` pixels. -/
def turnAt (n : ℕ) (m : ℤ) (i : ℕ) : ℕ := ((m - i) % (n : ℤ)).toNat

theorem turnAt_lt (n : ℕ) (m : ℤ) (i : ℕ) (h : n ≠ 0) : turnAt n m i < n := by
  have := Int.emod_lt_of_pos (m - i) (show (0 : ℤ) < n by omega)
  unfold turnAt
  omega

theorem turnAt_last (n i : ℕ) (hi : i < n) : turnAt n ((n : ℤ) - 1) i = n - 1 - i := by
  unfold turnAt
  rw [Int.emod_eq_of_lt (by omega) (by omega)]
  omega

theorem turnAt_backBy (n : ℕ) (m : ℤ) (i : ℕ) (hi : i < n) :
    turnAt n m i = backBy n ((n : ℤ) - 1 - m) (n - 1 - i) := by
  unfold turnAt backBy
  have : (((n - 1 - i : ℕ) : ℤ)) - ((n : ℤ) - 1 - m) = m - i := by omega
  rw [this]

theorem sum_turnAt {M : Type*} [AddCommMonoid M] (n : ℕ) (m : ℤ) (f : ℕ → M) :
    ∑ i ∈ range n, f (turnAt n m i) = ∑ i ∈ range n, f i := by
  rw [← sum_backBy n ((n : ℤ) - 1 - m) f, ← Finset.sum_range_reflect]
  refine Finset.sum_congr rfl fun i hi => ?_
  rw [mem_range] at hi
  rw [turnAt_backBy n m (n - 1 - i) (by omega), show n - 1 - (n - 1 - i) = i by omega]

theorem tw_turnAt (n : ℕ) (hn : n ≠ 0) (m : ℤ) (k i : ℕ) :
    tw n ((k : ℝ) * turnAt n m i) = tw n ((k : ℝ) * m) * tw n (-((k : ℝ) * i)) := by
  unfold turnAt
  rw [tw_emod n hn k, ← tw_add]
  congr 1
  push_cast
  ring

/-- The transform of the conjugate of an image seen in a mirror. -/
theorem dft_mirror (x y : Img ℂ) (m n : ℤ) (eh : y.h = x.h) (ew : y.w = x.w) (h0 : x.h ≠ 0) (w0 : x.w ≠ 0)
    (hy : ∀ i < x.h, ∀ j < x.w, y.px i j = (starRingEnd ℂ) (x.px (turnAt x.h m i) (turnAt x.w n j))) (k l : ℕ) :
    (dft y).px k l = (starRingEnd ℂ) ((dft x).px k l) * shiftPhase x.h x.w ((m : ℝ), (n : ℝ)) k l := by
  rw [shiftPhase_int _ _ h0 w0]
  change ∑ i ∈ range y.h, ∑ j ∈ range y.w, y.px i j * (tw y.h ((k : ℝ) * i) * tw y.w ((l : ℝ) * j)) =
    (starRingEnd ℂ) (∑ i ∈ range x.h, ∑ j ∈ range x.w, x.px i j * (tw x.h ((k : ℝ) * i) * tw x.w ((l : ℝ) * j))) * _
  rw [eh, ew, ← sum_turnAt x.h m (fun i => ∑ j ∈ range x.w, x.px i j * (tw x.h ((k : ℝ) * i) * tw x.w ((l : ℝ) * j))),
    map_sum, Finset.sum_mul]
  refine Finset.sum_congr rfl fun i hi => ?_
  rw [← sum_turnAt x.w n (fun j => x.px (turnAt x.h m i) j * (tw x.h ((k : ℝ) * turnAt x.h m i) * tw x.w ((l : ℝ) * j))),
    map_sum, Finset.sum_mul]
  refine Finset.sum_congr rfl fun j hj => ?_
  rw [hy i (mem_range.1 hi) j (mem_range.1 hj), map_mul, map_mul, tw_turnAt _ h0, tw_turnAt _ w0, map_mul, map_mul]
  simp only [conj_tw, neg_neg]
  have a := tw_neg_mul x.h ((k : ℝ) * m)
  have b := tw_neg_mul x.w ((l : ℝ) * n)
  linear_combination (-(starRingEnd ℂ) (x.px (turnAt x.h m i) (turnAt x.w n j)) * tw x.h ((k : ℝ) * i) *
    tw x.w ((l : ℝ) * j)) * (a * (tw x.w ((l : ℝ) * n) * tw x.w (-((l : ℝ) * n))) + b)

/-- The inverse transform of conjugate coefficients with a phase. -/
theorem idft_mirror (h w : ℕ) (X Y : ℕ → ℕ → ℂ) (m n : ℤ) (h0 : h ≠ 0) (w0 : w ≠ 0)
    (hY : ∀ k < h, ∀ l < w, Y k l = (starRingEnd ℂ) (X k l) * shiftPhase h w ((m : ℝ), (n : ℝ)) k l) (i j : ℕ) :
    (idftSum ⟨h, w, Y⟩).px i j = (starRingEnd ℂ) ((idftSum ⟨h, w, X⟩).px (turnAt h m i) (turnAt w n j)) := by
  change ∑ k ∈ range h, ∑ l ∈ range w, Y k l * (tw h (-((k : ℝ) * i)) * tw w (-((l : ℝ) * j))) =
    (starRingEnd ℂ) (∑ k ∈ range h, ∑ l ∈ range w, X k l * (tw h (-((k : ℝ) * turnAt h m i)) *
      tw w (-((l : ℝ) * turnAt w n j))))
  rw [map_sum]
  refine Finset.sum_congr rfl fun k hk => ?_
  rw [map_sum]
  refine Finset.sum_congr rfl fun l hl => ?_
  rw [hY k (mem_range.1 hk) l (mem_range.1 hl), shiftPhase_int _ _ h0 w0, map_mul, map_mul, conj_tw, conj_tw, neg_neg, neg_neg,
    tw_turnAt _ h0, tw_turnAt _ w0]
  ring

theorem ifftOrtho_mirror (h w : ℕ) (X Y : ℕ → ℕ → ℂ) (m n : ℤ) (h0 : h ≠ 0) (w0 : w ≠ 0)
    (hY : ∀ k < h, ∀ l < w, Y k l = (starRingEnd ℂ) (X k l) * shiftPhase h w ((m : ℝ), (n : ℝ)) k l) (i j : ℕ) :
    (ifftOrtho ⟨h, w, Y⟩).px i j = (starRingEnd ℂ) ((ifftOrtho ⟨h, w, X⟩).px (turnAt h m i) (turnAt w n j)) := by
  change (idftSum ⟨h, w, Y⟩).px i j / _ = (starRingEnd ℂ) ((idftSum ⟨h, w, X⟩).px _ _ / _)
  rw [idft_mirror h w X Y m n h0 w0 hY, map_div₀, Complex.conj_ofReal]

theorem ifftDefault_mirror (h w : ℕ) (X Y : ℕ → ℕ → ℂ) (m n : ℤ) (h0 : h ≠ 0) (w0 : w ≠ 0)
    (hY : ∀ k < h, ∀ l < w, Y k l = (starRingEnd ℂ) (X k l) * shiftPhase h w ((m : ℝ), (n : ℝ)) k l) (i j : ℕ) :
    (ifftDefault ⟨h, w, Y⟩).px i j = (starRingEnd ℂ) ((ifftDefault ⟨h, w, X⟩).px (turnAt h m i) (turnAt w n j)) := by
  change (idftSum ⟨h, w, Y⟩).px i j / _ = (starRingEnd ℂ) ((idftSum ⟨h, w, X⟩).px _ _ / _)
  rw [idft_mirror h w X Y m n h0 w0 hY, map_div₀, map_natCast]

/-- A real stamp inside a frame. -/
theorem padded_turned (x : Img ℂ) (h w : ℕ) (h0 : h ≠ 0) (w0 : w ≠ 0) (hh : x.h ≤ h) (hw : x.w ≤ w)
    (hx : ∀ i < x.h, ∀ j < x.w, (starRingEnd ℂ) (x.px i j) = x.px i j) (k l : ℕ) :
    (fftOrtho (padTo h w x.turned)).px k l = (starRingEnd ℂ) ((fftOrtho (padTo h w x)).px k l) *
      shiftPhase h w ((((x.h : ℤ) - 1 : ℤ) : ℝ), (((x.w : ℤ) - 1 : ℤ) : ℝ)) k l := by
  have at' : ∀ n N i, i < N → n ≤ N → (turnAt N ((n : ℤ) - 1) i < n ↔ i < n) ∧ (i < n → turnAt N ((n : ℤ) - 1) i = n - 1 - i) := by
    intro n N i hi hn
    by_cases q : i < n
    · have e : turnAt N ((n : ℤ) - 1) i = n - 1 - i := by
        unfold turnAt
        rw [Int.emod_eq_of_lt (by omega) (by omega)]
        omega
      exact ⟨⟨fun _ => q, fun _ => by omega⟩, fun _ => e⟩
    · have e : turnAt N ((n : ℤ) - 1) i = N + n - 1 - i := by
        unfold turnAt
        rw [← Int.add_emod_right, Int.emod_eq_of_lt (by omega) (by omega)]
        omega
      exact ⟨⟨fun r => by omega, fun r => absurd r q⟩, fun r => absurd r q⟩
  have r := dft_mirror (padTo h w x) (padTo h w x.turned) ((x.h : ℤ) - 1) ((x.w : ℤ) - 1) rfl rfl h0 w0 (by
    intro i hi j hj
    change i < h at hi
    change j < w at hj
    change (if i < x.h ∧ j < x.w then x.px (x.h - 1 - i) (x.w - 1 - j) else 0) =
      (starRingEnd ℂ) (if turnAt h ((x.h : ℤ) - 1) i < x.h ∧ turnAt w ((x.w : ℤ) - 1) j < x.w then
        x.px (turnAt h ((x.h : ℤ) - 1) i) (turnAt w ((x.w : ℤ) - 1) j) else 0)
    obtain ⟨a1, a2⟩ := at' x.h h i hi hh
    obtain ⟨b1, b2⟩ := at' x.w w j hj hw
    by_cases q : i < x.h ∧ j < x.w
    · rw [if_pos q, if_pos ⟨a1.2 q.1, b1.2 q.2⟩, a2 q.1, b2 q.2, hx _ (by omega) _ (by omega)]
    · rw [if_neg q, if_neg (fun p => q ⟨a1.1 p.1, b1.1 p.2⟩), map_zero]) k l
  change (dft (padTo h w x.turned)).px k l / _ = (starRingEnd ℂ) ((dft (padTo h w x)).px k l / _) * _
  rw [r, map_div₀, Complex.conj_ofReal, div_mul_eq_mul_div]
  rfl

/-- A real image. -/
theorem fftOrtho_turned (x : Img ℂ) (h0 : x.h ≠ 0) (w0 : x.w ≠ 0)
    (hx : ∀ i < x.h, ∀ j < x.w, (starRingEnd ℂ) (x.px i j) = x.px i j) (k l : ℕ) :
    (fftOrtho x.turned).px k l = (starRingEnd ℂ) ((fftOrtho x).px k l) *
      shiftPhase x.h x.w ((((x.h : ℤ) - 1 : ℤ) : ℝ), (((x.w : ℤ) - 1 : ℤ) : ℝ)) k l := by
  have r := dft_mirror x x.turned ((x.h : ℤ) - 1) ((x.w : ℤ) - 1) rfl rfl h0 w0 (by
    intro i hi j hj
    rw [turnAt_last _ _ hi, turnAt_last _ _ hj, hx _ (by omega) _ (by omega)]
    rfl) k l
  change (dft x.turned).px k l / _ = (starRingEnd ℂ) ((dft x).px k l / _) * _
  rw [r, map_div₀, Complex.conj_ofReal, div_mul_eq_mul_div]
  rfl

/-! ## Centre of mass -/

theorem rsum_turned_weight (a : Img ℝ) (c : ℕ → ℕ → ℝ) :
    ∑ i ∈ range a.h, ∑ j ∈ range a.w, c i j * a.turned.px i j =
      ∑ i ∈ range a.h, ∑ j ∈ range a.w, c (a.h - 1 - i) (a.w - 1 - j) * a.px i j := by
  rw [← Finset.sum_range_reflect]
  refine Finset.sum_congr rfl fun i hi => ?_
  rw [← Finset.sum_range_reflect]
  refine Finset.sum_congr rfl fun j hj => ?_
  rw [mem_range] at hi hj
  change _ * a.px (a.h - 1 - (a.h - 1 - i)) (a.w - 1 - (a.w - 1 - j)) = _
  rw [show a.h - 1 - (a.h - 1 - i) = i by omega, show a.w - 1 - (a.w - 1 - j) = j by omega]

theorem rsum_turned (a : Img ℝ) : rsum a.turned = rsum a := by
  have := rsum_turned_weight a fun _ _ => 1
  simp only [one_mul] at this
  exact this

theorem com_turned (a : Img ℝ) (hs : rsum a ≠ 0) :
    centerOfMass a.turned = ((a.h : ℝ) - 1 - (centerOfMass a).1, (a.w : ℝ) - 1 - (centerOfMass a).2) := by
  have e : ∀ (n : ℕ) (c : ℕ → ℕ → ℝ) (p : ℕ → ℕ → ℕ), (∀ i < a.h, ∀ j < a.w, c i j = (n : ℝ) - 1 - p i j) →
      ∑ i ∈ range a.h, ∑ j ∈ range a.w, c i j * a.px i j =
        ((n : ℝ) - 1) * rsum a - ∑ i ∈ range a.h, ∑ j ∈ range a.w, p i j * a.px i j := by
    intro n c p hc
    unfold rsum
    rw [Finset.mul_sum, ← Finset.sum_sub_distrib]
    refine Finset.sum_congr rfl fun i hi => ?_
    rw [Finset.mul_sum, ← Finset.sum_sub_distrib]
    refine Finset.sum_congr rfl fun j hj => ?_
    rw [hc i (mem_range.1 hi) j (mem_range.1 hj)]
    ring
  unfold centerOfMass
  rw [rsum_turned]
  have a1 : rsum ⟨a.turned.h, a.turned.w, fun i j => i * a.turned.px i j⟩ =
      ((a.h : ℝ) - 1) * rsum a - rsum ⟨a.h, a.w, fun i j => i * a.px i j⟩ :=
    (rsum_turned_weight a fun i _ => (i : ℝ)).trans (e a.h _ (fun i _ => i) fun i hi j _ => by
      have : a.h - 1 - i + 1 + i = a.h := by omega
      have : (((a.h - 1 - i : ℕ) : ℝ)) + 1 + i = a.h := by exact_mod_cast this
      linarith)
  have a2 : rsum ⟨a.turned.h, a.turned.w, fun i j => j * a.turned.px i j⟩ =
      ((a.w : ℝ) - 1) * rsum a - rsum ⟨a.h, a.w, fun i j => j * a.px i j⟩ :=
    (rsum_turned_weight a fun _ j => (j : ℝ)).trans (e a.w _ (fun _ j => j) fun i _ j hj => by
      have : a.w - 1 - j + 1 + j = a.w := by omega
      have : (((a.w - 1 - j : ℕ) : ℝ)) + 1 + j = a.w := by exact_mod_cast this
      linarith)
  rw [a1, a2]
  refine Prod.ext ?_ ?_
  · change _ / _ = (a.h : ℝ) - 1 - _ / _
    field_simp
  · change _ / _ = (a.w : ℝ) - 1 - _ / _
    field_simp

/-! ## Masks -/

theorem any_turned (a : Img Bool) : a.turned.any = a.any := by
  rw [Bool.eq_iff_iff, Img.any_iff, Img.any_iff]
  constructor
  · rintro ⟨i, hi, j, hj, h⟩
    change i < a.h at hi
    change j < a.w at hj
    exact ⟨a.h - 1 - i, by omega, a.w - 1 - j, by omega, h⟩
  · rintro ⟨i, hi, j, hj, h⟩
    refine ⟨a.h - 1 - i, by change _ < a.h; omega, a.w - 1 - j, by change _ < a.w; omega, ?_⟩
    change a.px (a.h - 1 - (a.h - 1 - i)) (a.w - 1 - (a.w - 1 - j)) = true
    rw [show a.h - 1 - (a.h - 1 - i) = i by omega, show a.w - 1 - (a.w - 1 - j) = j by omega, h]

/-- The turned mask. -/
def NMask.turned (m : NMask) : NMask := Option.map (fun a => a.turned) m

theorem shrink_turned (a : Img Bool) : NMask.shrink a.turned = (NMask.shrink a).turned := by
  unfold NMask.shrink
  rw [any_turned]
  split_ifs <;> rfl

theorem maskOr_turned (m1 m2 : NMask) : m1.turned.maskOr m2.turned = (m1.maskOr m2).map fun m => m.turned := by
  rcases m1 with _ | a <;> rcases m2 with _ | b
  · rfl
  · exact congrArg Except.ok (shrink_turned b)
  · exact congrArg Except.ok (shrink_turned a)
  · change (if a.shape = b.shape then Except.ok (NMask.shrink (a.turned.zip (fun x y => x || y) b.turned))
        else Except.error PyErr.ValueError) =
      Except.map (fun m => NMask.turned m) (if a.shape = b.shape then
        Except.ok (NMask.shrink (a.zip (fun x y => x || y) b)) else Except.error PyErr.ValueError)
    by_cases h : a.shape = b.shape
    · rw [if_pos h, if_pos h]
      refine congrArg Except.ok ?_
      change _ = (NMask.shrink (a.zip (fun x y => x || y) b)).turned
      rw [← shrink_turned]
      have h1 : a.h = b.h := congrArg Prod.fst h
      have h2 : a.w = b.w := congrArg Prod.snd h
      unfold Img.turned Img.zip
      rw [h1, h2]
    · rw [if_neg h, if_neg h]
      rfl

theorem marks_turned (m : NMask) (h w : ℕ) (hs : m.HasShape h w) (i j : ℕ) :
    m.turned.marks i j = m.marks (h - 1 - i) (w - 1 - j) := by
  rcases m with _ | a
  · rfl
  · obtain ⟨rfl, rfl⟩ := hs a rfl
    rfl

/-! ## subtract -/

/-- The image object of the turned arrays. -/
def SubImg.turned (d : SubImg) : SubImg := ⟨d.interped.turned, d.mask.turned, d.filled.turned, d.psf.turned, d.var⟩

/-- Everything outside `subtract`, for the turned images. -/
def SubEnv.turned (env : SubEnv) : SubEnv := { env with gamma := env.gamma.turned }

/-- The phase of half a turn about the middle of a frame of `m × n` pixels. -/
noncomputable def turnPhase (h w m n k l : ℕ) : ℂ := shiftPhase h w ((((m : ℤ) - 1 : ℤ) : ℝ), (((n : ℤ) - 1 : ℤ) : ℝ)) k l

/-- The image is `h × w`, the stamp of its PSF is not larger and has a total, and the guard of the PSF's coefficients is idle
for it and for the turned stamp. -/
structure Turnable (d : SubImg) (h w : ℕ) : Prop where
  shape : d.interped.shape = (h, w)
  fitsH : d.psf.h ≤ h
  fitsW : d.psf.w ≤ w
  total : rsum d.psf ≠ 0
  idle : GuardIdle h w d.psf
  idleT : GuardIdle h w d.psf.turned

section
variable (h w : ℕ) (h0 : h ≠ 0) (w0 : w ≠ 0) (d ref new : SubImg) (hd : Turnable d h w) (hr : Turnable ref h w)
    (hn : Turnable new h w)

include h0 w0 hd

theorem psfHat_turned (k l : ℕ) (hk : k < h) (hl : l < w) :
    d.turned.psfHat.px k l = (starRingEnd ℂ) (d.psfHat.px k l) * turnPhase h w d.psf.h d.psf.w k l := by
  have e1 : d.interped.h = h := congrArg Prod.fst hd.shape
  have e2 : d.interped.w = w := congrArg Prod.snd hd.shape
  rw [psfHat_idle d.turned h w e1 e2 hd.idleT k l hk hl, psfHat_idle d h w e1 e2 hd.idle k l hk hl]
  exact padded_turned (toC d.psf) h w h0 w0 hd.fitsH hd.fitsW (fun i _ j _ => Complex.conj_ofReal _) k l

theorem interpedHat_turned (k l : ℕ) :
    d.turned.interpedHat.px k l = (starRingEnd ℂ) (d.interpedHat.px k l) * turnPhase h w h w k l := by
  have e1 : d.interped.h = h := congrArg Prod.fst hd.shape
  have e2 : d.interped.w = w := congrArg Prod.snd hd.shape
  subst e1 e2
  exact fftOrtho_turned (toC d.interped) h0 w0 (fun i _ j _ => Complex.conj_ofReal _) k l

/-- Moved to its centre of mass, the turned PSF has the conjugate coefficients. -/
theorem centredPsf_turned (k l : ℕ) (hk : k < h) (hl : l < w) :
    centredPsf d.turned k l = (starRingEnd ℂ) (centredPsf d k l) := by
  have e1 : d.h = h := congrArg Prod.fst hd.shape
  have e2 : d.w = w := congrArg Prod.snd hd.shape
  have f1 : d.turned.h = h := e1
  have f2 : d.turned.w = w := e2
  unfold centredPsf
  rw [psfHat_turned h w h0 w0 d hd k l hk hl, map_mul, e1, e2, f1, f2, mul_assoc]
  congr 1
  unfold turnPhase
  rw [← shiftPhase_add]
  change shiftPhase h w (_ + -(centerOfMass d.psf.turned).1, _ + -(centerOfMass d.psf.turned).2) k l = _
  rw [com_turned d.psf hd.total]
  unfold shiftPhase negPair
  rw [map_mul, conj_tw, conj_tw]
  push_cast
  congr 2 <;> ring

omit h0 w0 hd
include h0 w0 hr hn

theorem normHat_turned (b : ℝ) (k l : ℕ) (hk : k < h) (hl : l < w) :
    normHat ref.turned new.turned b k l = normHat ref new b k l := by
  rw [normHat_eq, normHat_eq]
  unfold normReal
  rw [psfHat_turned h w h0 w0 ref hr k l hk hl, psfHat_turned h w h0 w0 new hn k l hk hl]
  unfold turnPhase
  rw [normSq_mul, normSq_mul, normSq_shiftPhase, normSq_shiftPhase, normSq_conj, normSq_conj, mul_one, mul_one]
  rfl

theorem dHatN_turned (k l : ℕ) (hk : k < h) (hl : l < w) :
    (dHatN ref.turned new.turned).px k l = (starRingEnd ℂ) ((dHatN ref new).px k l) * turnPhase h w h w k l := by
  have e1 : ref.h = h := congrArg Prod.fst hr.shape
  have e2 : ref.w = w := congrArg Prod.snd hr.shape
  have c : ∀ r n : SubImg, (dHatN r n).px k l = centredPsf r k l * n.interpedHat.px k l := by
    intro r n
    change r.psfHat.px k l * n.interpedHat.px k l * shiftPhase r.h r.w _ k l = _
    unfold centredPsf
    ring
  rw [c, c, centredPsf_turned h w h0 w0 ref hr k l hk hl, interpedHat_turned h w h0 w0 new hn, map_mul]
  ring

theorem dHatR_turned (k l : ℕ) (hk : k < h) (hl : l < w) :
    (dHatR ref.turned new.turned).px k l = (starRingEnd ℂ) ((dHatR ref new).px k l) * turnPhase h w h w k l := by
  have e : new.interped.shape = ref.interped.shape := hn.shape.trans hr.shape.symm
  have e1 : new.h = ref.h := congrArg Prod.fst e
  have e2 : new.w = ref.w := congrArg Prod.snd e
  have c : ∀ r n : SubImg, (dHatR r n).px k l = centredPsf n k l * r.interpedHat.px k l := by
    intro r n
    change n.psfHat.px k l * r.interpedHat.px k l * shiftPhase n.h n.w _ k l = _
    unfold centredPsf
    ring
  rw [c, c, centredPsf_turned h w h0 w0 new hn k l hk hl, interpedHat_turned h w h0 w0 ref hr, map_mul]
  ring

omit h0 w0 hr hn in
theorem conj_csqrt_norm (b : ℝ) (k l : ℕ) :
    (starRingEnd ℂ) (csqrt (normHat ref new b k l)) = csqrt (normHat ref new b k l) := by
  rw [csqrt_normHat, Complex.conj_ofReal]

theorem dHat_turned (b : ℝ) (k l : ℕ) (hk : k < h) (hl : l < w) :
    (dHat ref.turned new.turned b 0 0).px k l =
      (starRingEnd ℂ) ((dHat ref new b 0 0).px k l) * turnPhase h w h w k l := by
  have e : ∀ r n : SubImg, (dHat r n b 0 0).px k l =
      ((dHatN r n).px k l - (b : ℂ) * (dHatR r n).px k l) / csqrt (normHat r n b k l) := by
    intro r n
    unfold dHat
    simp only [and_self, if_true]
    rfl
  rw [e, e, dHatN_turned h w h0 w0 ref new hr hn k l hk hl, dHatR_turned h w h0 w0 ref new hr hn k l hk hl,
    normHat_turned h w h0 w0 ref new hr hn b k l hk hl, map_div₀, conj_csqrt_norm ref new, map_sub, map_mul,
    Complex.conj_ofReal]
  ring

theorem pHat_turned (b : ℝ) (k l : ℕ) (hk : k < h) (hl : l < w) :
    (pHat ref.turned new.turned b).px k l = (starRingEnd ℂ) ((pHat ref new b).px k l) *
      (turnPhase h w ref.psf.h ref.psf.w k l * turnPhase h w new.psf.h new.psf.w k l) := by
  change (ref.turned.psfHat.px k l * new.turned.psfHat.px k l * b) /
      (csqrt (normHat ref.turned new.turned b k l) * dZp ref.turned new.turned b) =
    (starRingEnd ℂ) ((ref.psfHat.px k l * new.psfHat.px k l * b) / (csqrt (normHat ref new b k l) * dZp ref new b)) * _
  rw [psfHat_turned h w h0 w0 ref hr k l hk hl, psfHat_turned h w h0 w0 new hn k l hk hl,
    normHat_turned h w h0 w0 ref new hr hn b k l hk hl, map_div₀, map_mul, map_mul, map_mul,
    conj_csqrt_norm ref new, Complex.conj_ofReal, Complex.conj_ofReal,
    show dZp ref.turned new.turned b = dZp ref new b from rfl]
  ring

theorem D_turned (b : ℝ) (i j : ℕ) (hi : i < h) (hj : j < w) :
    (ifftOrtho (dHat ref.turned new.turned b 0 0)).px i j =
      (starRingEnd ℂ) ((ifftOrtho (dHat ref new b 0 0)).px (h - 1 - i) (w - 1 - j)) := by
  have e1 : ref.h = h := congrArg Prod.fst hr.shape
  have e2 : ref.w = w := congrArg Prod.snd hr.shape
  have r := ifftOrtho_mirror h w (dHat ref new b 0 0).px (dHat ref.turned new.turned b 0 0).px ((h : ℤ) - 1) ((w : ℤ) - 1) h0 w0
    (fun k hk l hl => dHat_turned h w h0 w0 ref new hr hn b k l hk hl) i j
  rw [turnAt_last h i hi, turnAt_last w j hj] at r
  have q : ∀ r n : SubImg, r.h = h → r.w = w → dHat r n b 0 0 = ⟨h, w, (dHat r n b 0 0).px⟩ := by
    intro r n a c
    subst a c
    rfl
  rw [q ref.turned new.turned e1 e2, q ref new e1 e2]
  exact r

theorem P_turned (b : ℝ) (i j : ℕ) : (subP ref.turned new.turned b).px i j =
    (subP ref new b).px (turnAt h (ref.psf.h + new.psf.h - 2) i) (turnAt w (ref.psf.w + new.psf.w - 2) j) := by
  have e1 : ref.h = h := congrArg Prod.fst hr.shape
  have e2 : ref.w = w := congrArg Prod.snd hr.shape
  have r := ifftOrtho_mirror h w (pHat ref new b).px (pHat ref.turned new.turned b).px
    (ref.psf.h + new.psf.h - 2) (ref.psf.w + new.psf.w - 2) h0 w0 (fun k hk l hl => by
      rw [pHat_turned h w h0 w0 ref new hr hn b k l hk hl]
      unfold turnPhase
      rw [← shiftPhase_add]
      congr 3
      · push_cast
        ring
      · push_cast
        ring) i j
  have q : ∀ r n : SubImg, r.h = h → r.w = w → pHat r n b = ⟨h, w, (pHat r n b).px⟩ := by
    intro r n a c
    subst a c
    rfl
  change ((ifftOrtho (pHat ref.turned new.turned b)).px i j).re = ((ifftOrtho (pHat ref new b)).px _ _).re
  rw [q ref.turned new.turned e1 e2, q ref new e1 e2, r, Complex.conj_re]

theorem scaleCost_turned (gamma : Img ℝ) (hg : gamma.shape = (h, w)) (m : NMask) (hm : m.HasShape h w) :
    scaleCost gamma.turned m.turned ref.turned new.turned = scaleCost gamma m ref new := by
  funext b
  have e1 : ref.h = h := congrArg Prod.fst hr.shape
  have e2 : ref.w = w := congrArg Prod.snd hr.shape
  have g1 : gamma.h = h := congrArg Prod.fst hg
  have g2 : gamma.w = w := congrArg Prod.snd hg
  have key : ∀ (X X' : ℕ → ℕ → ℂ), (∀ k < h, ∀ l < w, X' k l = (starRingEnd ℂ) (X k l) * turnPhase h w h w k l) →
      ∀ i < h, ∀ j < w,
      (ifftOrtho ⟨h, w, fun k l => X' k l / csqrt (normHat ref.turned new.turned b k l)⟩).px i j =
        (starRingEnd ℂ) ((ifftOrtho ⟨h, w, fun k l => X k l / csqrt (normHat ref new b k l)⟩).px (h - 1 - i) (w - 1 - j)) := by
    intro X X' hX i hi j hj
    have r := ifftOrtho_mirror h w (fun k l => X k l / csqrt (normHat ref new b k l))
      (fun k l => X' k l / csqrt (normHat ref.turned new.turned b k l)) ((h : ℤ) - 1) ((w : ℤ) - 1) h0 w0
      (fun k hk l hl => by
        rw [hX k hk l hl, normHat_turned h w h0 w0 ref new hr hn b k l hk hl, map_div₀,
          conj_csqrt_norm ref new]
        exact mul_div_right_comm _ _ _) i j
    rw [turnAt_last h i hi, turnAt_last w j hj] at r
    exact r
  have en := key (dHatN ref new).px _ (fun k hk l hl => dHatN_turned h w h0 w0 ref new hr hn k l hk hl)
  have er := key (dHatR ref new).px _ (fun k hk l hl => dHatR_turned h w h0 w0 ref new hr hn k l hk hl)
  unfold scaleCost
  simp only []
  have e1' : ref.turned.h = h := e1
  have e2' : ref.turned.w = w := e2
  rw [e1, e2, e1', e2']
  conv_rhs => rw [← Finset.sum_range_reflect]
  refine Finset.sum_congr rfl fun i hi => ?_
  conv_rhs => rw [← Finset.sum_range_reflect]
  refine Finset.sum_congr rfl fun j hj => ?_
  rw [marks_turned m h w hm, en i (mem_range.1 hi) j (mem_range.1 hj), er i (mem_range.1 hi) j (mem_range.1 hj)]
  have eg : (gammaP gamma.turned ref.turned new.turned b).px i j = (gammaP gamma ref new b).px (h - 1 - i) (w - 1 - j) := by
    change gamma.px (gamma.h - 1 - i) (gamma.w - 1 - j) / _ = gamma.px (h - 1 - i) (w - 1 - j) / _
    rw [g1, g2]
    rfl
  rw [eg]
  congr 2
  simp only [Complex.sub_re, Complex.mul_re, Complex.conj_re, Complex.ofReal_re, Complex.ofReal_im, zero_mul, sub_zero]

end

/-- C144: half a turn of both images (pixels, masks, PSFs, backgrounds) turns D and the mask and reflects P; where `subtract`
raises, it raises the same error. The PSF's centre of mass has to lie on its stamp, or the PSF to be a fitted Gaussian. -/
theorem subtract_turned (env : SubEnv) (bt it : Bool) (ref new : SubImg) (h w : ℕ) (h0 : h ≠ 0) (w0 : w ≠ 0)
    (hr : Turnable ref h w) (hn : Turnable new h w) (hg : env.gamma.shape = (h, w))
    (hmr : ref.mask.HasShape h w) (hmn : new.mask.HasShape h w)
    (hc : env.fitted = true ∨ (0 ≤ (centerOfMass new.psf).1 ∧ (centerOfMass new.psf).1 ≤ new.psf.h - 1 ∧
      0 ≤ (centerOfMass new.psf).2 ∧ (centerOfMass new.psf).2 ≤ new.psf.w - 1)) :
    (∃ er, subtract env ⟨bt, false, it⟩ ref new = .error er ∧
      subtract env.turned ⟨bt, false, it⟩ ref.turned new.turned = .error er) ∨
    ∃ out out', subtract env ⟨bt, false, it⟩ ref new = .ok out ∧
      subtract env.turned ⟨bt, false, it⟩ ref.turned new.turned = .ok out' ∧
      out'.mask = out.mask.turned ∧ ∀ i < h, ∀ j < w,
        out'.D.px i j = (starRingEnd ℂ) (out.D.px (h - 1 - i) (w - 1 - j)) ∧
        out'.P.px i j =
          out.P.px (turnAt h (ref.psf.h + new.psf.h - 2) i) (turnAt w (ref.psf.w + new.psf.w - 2) j) := by
  have hsh : ∀ m, new.mask.maskOr ref.mask = .ok m → m.HasShape h w := by
    intro m hm
    obtain ⟨m', e, hs, _⟩ := NMask.maskOr_spec new.mask ref.mask h w hmn hmr
    rw [hm] at e
    cases e
    exact hs
  have hc' : (env.turned.fitted = false ∧ ((centerOfMass new.turned.psf).1 < 0 ∨ (centerOfMass new.turned.psf).2 < 0)) ↔
      (env.fitted = false ∧ ((centerOfMass new.psf).1 < 0 ∨ (centerOfMass new.psf).2 < 0)) := by
    change (env.fitted = false ∧ ((centerOfMass new.psf.turned).1 < 0 ∨ (centerOfMass new.psf.turned).2 < 0)) ↔ _
    rw [com_turned new.psf hn.total]
    rcases hc with q | ⟨q1, q2, q3, q4⟩
    · rw [q]
      simp
    · constructor
      · rintro ⟨_, p | p⟩
        · exact absurd p (by simp only; linarith)
        · exact absurd p (by simp only; linarith)
      · rintro ⟨_, p | p⟩
        · exact absurd p (by linarith)
        · exact absurd p (by linarith)
  rcases subtract_pair env env.turned bt it ref new ref.turned new.turned (fun m => m.turned)
    rfl rfl Iff.rfl (maskOr_turned _ _) hc'
    (fun m hm => scaleCost_turned h w h0 w0 ref new hr hn env.gamma hg m (hsh m hm))
    (fun m hm => imageSeen_rearranged (fun a => a.turned) (fun _ => ⟨rfl, rfl⟩) (fun a => any_turned (a.map fun b => !b)) m _ _ (by
      have r1 : ref.h = h := congrArg Prod.fst hr.shape
      have r2 : ref.w = w := congrArg Prod.snd hr.shape
      change m.HasShape ref.h ref.w
      rw [r1, r2]
      exact hsh m hm)) with
    ⟨er, e1, e2⟩ | ⟨m, z, b, _, _, _, e1, e2⟩
  · exact Or.inl ⟨er, e1, e2⟩
  · exact Or.inr ⟨_, _, e1, e2, rfl, fun i hi j hj => ⟨D_turned h w h0 w0 ref new hr hn b i j hi hj,
      P_turned h w h0 w0 ref new hr hn b i j⟩⟩

/-! ## The score -/

theorem conj_phase_int (h w : ℕ) (a b : ℤ) (k l : ℕ) :
    (starRingEnd ℂ) (shiftPhase h w ((a : ℝ), (b : ℝ)) k l) = shiftPhase h w (((-a : ℤ) : ℝ), ((-b : ℤ) : ℝ)) k l := by
  unfold shiftPhase
  rw [map_mul, conj_tw, conj_tw]
  push_cast
  simp only [mul_neg]

section
variable (h w : ℕ) (h0 : h ≠ 0) (w0 : w ≠ 0) (ref new : SubImg) (hr : Turnable ref h w) (hn : Turnable new h w)
include h0 w0

/-- The noise term of an image, when its kernel has conjugate coefficients and another phase. -/
theorem subV_mirror (f : Img ℝ) (hf : f.shape = (h, w)) (X Y : ℕ → ℕ → ℂ) (m n : ℤ)
    (hY : ∀ k < h, ∀ l < w, Y k l = (starRingEnd ℂ) (X k l) * shiftPhase h w ((m : ℝ), (n : ℝ)) k l) (i j : ℕ) :
    (subV f.turned (ifftOrtho ⟨h, w, Y⟩)).px i j = (starRingEnd ℂ) ((subV f (ifftOrtho ⟨h, w, X⟩)).px
      (turnAt h (h - 1 + m) i) (turnAt w (w - 1 + n) j)) := by
  have e1 : f.h = h := congrArg Prod.fst hf
  have e2 : f.w = w := congrArg Prod.snd hf
  subst e1 e2
  refine ifftOrtho_mirror f.h f.w _ _ _ _ h0 w0 (fun k hk l hl => ?_) i j
  have a := fftOrtho_turned (f.map fun x => ((x + 1 : ℝ) : ℂ)) h0 w0 (fun i _ j _ => Complex.conj_ofReal _) k l
  have b := dft_mirror ((ifftOrtho ⟨f.h, f.w, X⟩).map fun z => z ^ 2) ((ifftOrtho ⟨f.h, f.w, Y⟩).map fun z => z ^ 2) m n rfl rfl
    h0 w0 (fun i _ j _ => by
      change ((ifftOrtho ⟨f.h, f.w, Y⟩).px i j) ^ 2 = (starRingEnd ℂ) (((ifftOrtho ⟨f.h, f.w, X⟩).px _ _) ^ 2)
      rw [ifftOrtho_mirror f.h f.w X Y m n h0 w0 hY, map_pow]
      rfl) k l
  change (fftOrtho (f.map fun x => ((x + 1 : ℝ) : ℂ)).turned).px k l *
      (dft ((ifftOrtho ⟨f.h, f.w, Y⟩).map fun z => z ^ 2)).px k l =
    (starRingEnd ℂ) ((fftOrtho (f.map fun x => ((x + 1 : ℝ) : ℂ))).px k l *
      (dft ((ifftOrtho ⟨f.h, f.w, X⟩).map fun z => z ^ 2)).px k l) * _
  rw [a, b, map_mul]
  change _ * shiftPhase f.h f.w ((((f.h : ℤ) - 1 : ℤ) : ℝ), (((f.w : ℤ) - 1 : ℤ) : ℝ)) k l *
    (_ * shiftPhase f.h f.w ((m : ℝ), (n : ℝ)) k l) = _ * shiftPhase f.h f.w _ k l
  have c := shiftPhase_add f.h f.w ((((f.h : ℤ) - 1 : ℤ) : ℝ), (((f.w : ℤ) - 1 : ℤ) : ℝ)) ((m : ℝ), (n : ℝ)) k l
  rw [mul_mul_mul_comm, ← c]
  push_cast
  rfl

include hr hn

omit h0 w0 hr hn in
theorem conj_norm (b : ℝ) (k l : ℕ) : (starRingEnd ℂ) (normHat ref new b k l) = normHat ref new b k l := by
  rw [normHat_eq, Complex.conj_ofReal]

theorem Vn_turned (hf : new.filled.shape = (h, w)) (z b : ℝ) (i j : ℕ) :
    (subV new.turned.filled (subKn ref.turned new.turned z b)).px i j =
      (starRingEnd ℂ) ((subV new.filled (subKn ref new z b)).px (turnAt h (h - new.psf.h) i) (turnAt w (w - new.psf.w) j)) := by
  have e1 : ref.h = h := congrArg Prod.fst hr.shape
  have e2 : ref.w = w := congrArg Prod.snd hr.shape
  have f1 : ref.turned.h = h := e1
  have f2 : ref.turned.w = w := e2
  unfold subKn
  rw [e1, e2, f1, f2]
  have r := subV_mirror h w h0 w0 new.filled hf
    (fun k l => (z : ℂ) * (starRingEnd ℂ) (new.psfHat.px k l) * ref.psfHat.px k l *
      (starRingEnd ℂ) (ref.psfHat.px k l) / normHat ref new b k l)
    (fun k l => (z : ℂ) * (starRingEnd ℂ) (new.turned.psfHat.px k l) * ref.turned.psfHat.px k l *
      (starRingEnd ℂ) (ref.turned.psfHat.px k l) / normHat ref.turned new.turned b k l)
    (-((new.psf.h : ℤ) - 1)) (-((new.psf.w : ℤ) - 1)) (fun k hk l hl => by
      rw [psfHat_turned h w h0 w0 ref hr k l hk hl, psfHat_turned h w h0 w0 new hn k l hk hl,
        normHat_turned h w h0 w0 ref new hr hn b k l hk hl, map_div₀, conj_norm ref new]
      simp only [map_mul, Complex.conj_conj, Complex.conj_ofReal]
      rw [← conj_phase_int]
      have q := shiftPhase_conj_mul h w ((((ref.psf.h : ℤ) - 1 : ℤ) : ℝ), (((ref.psf.w : ℤ) - 1 : ℤ) : ℝ)) k l
      unfold turnPhase
      linear_combination ((z : ℂ) * new.psfHat.px k l * (starRingEnd ℂ) (ref.psfHat.px k l) * ref.psfHat.px k l /
        normHat ref new b k l * (starRingEnd ℂ) (shiftPhase h w ((((new.psf.h : ℤ) - 1 : ℤ) : ℝ),
          (((new.psf.w : ℤ) - 1 : ℤ) : ℝ)) k l)) * q) i j
  rw [show (h : ℤ) - 1 + -((new.psf.h : ℤ) - 1) = h - new.psf.h by ring,
    show (w : ℤ) - 1 + -((new.psf.w : ℤ) - 1) = w - new.psf.w by ring] at r
  exact r

theorem Vr_turned (hf : ref.filled.shape = (h, w)) (z b : ℝ) (i j : ℕ) :
    (subV ref.turned.filled (subKr ref.turned new.turned z b)).px i j =
      (starRingEnd ℂ) ((subV ref.filled (subKr ref new z b)).px (turnAt h (h - ref.psf.h) i) (turnAt w (w - ref.psf.w) j)) := by
  have e1 : ref.h = h := congrArg Prod.fst hr.shape
  have e2 : ref.w = w := congrArg Prod.snd hr.shape
  have f1 : ref.turned.h = h := e1
  have f2 : ref.turned.w = w := e2
  unfold subKr
  rw [e1, e2, f1, f2]
  have r := subV_mirror h w h0 w0 ref.filled hf
    (fun k l => (z : ℂ) * (starRingEnd ℂ) (ref.psfHat.px k l) * b * new.psfHat.px k l *
      (starRingEnd ℂ) (new.psfHat.px k l) / normHat ref new b k l)
    (fun k l => (z : ℂ) * (starRingEnd ℂ) (ref.turned.psfHat.px k l) * b * new.turned.psfHat.px k l *
      (starRingEnd ℂ) (new.turned.psfHat.px k l) / normHat ref.turned new.turned b k l)
    (-((ref.psf.h : ℤ) - 1)) (-((ref.psf.w : ℤ) - 1)) (fun k hk l hl => by
      rw [psfHat_turned h w h0 w0 ref hr k l hk hl, psfHat_turned h w h0 w0 new hn k l hk hl,
        normHat_turned h w h0 w0 ref new hr hn b k l hk hl, map_div₀, conj_norm ref new]
      simp only [map_mul, Complex.conj_conj, Complex.conj_ofReal]
      rw [← conj_phase_int]
      have q := shiftPhase_conj_mul h w ((((new.psf.h : ℤ) - 1 : ℤ) : ℝ), (((new.psf.w : ℤ) - 1 : ℤ) : ℝ)) k l
      unfold turnPhase
      linear_combination ((z : ℂ) * ref.psfHat.px k l * b * (starRingEnd ℂ) (new.psfHat.px k l) * new.psfHat.px k l /
        normHat ref new b k l * (starRingEnd ℂ) (shiftPhase h w ((((ref.psf.h : ℤ) - 1 : ℤ) : ℝ),
          (((ref.psf.w : ℤ) - 1 : ℤ) : ℝ)) k l)) * q) i j
  rw [show (h : ℤ) - 1 + -((ref.psf.h : ℤ) - 1) = h - ref.psf.h by ring,
    show (w : ℤ) - 1 + -((ref.psf.w : ℤ) - 1) = w - ref.psf.w by ring] at r
  exact r

/-- The numerator of the score turns if the centre of P does. -/
theorem num_turned (peak : Img ℝ → ℕ × ℕ) (b : ℝ)
    (hc : subCenter peak (subP ref.turned new.turned b) =
      ((ref.psf.h + new.psf.h - 2 : ℝ) - (subCenter peak (subP ref new b)).1,
        (ref.psf.w + new.psf.w - 2 : ℝ) - (subCenter peak (subP ref new b)).2)) (i j : ℕ) (hi : i < h) (hj : j < w) :
    (ifftOrtho (sHat peak ref.turned new.turned b 0 0)).px i j =
      (starRingEnd ℂ) ((ifftOrtho (sHat peak ref new b 0 0)).px (h - 1 - i) (w - 1 - j)) := by
  have e1 : ref.h = h := congrArg Prod.fst hr.shape
  have e2 : ref.w = w := congrArg Prod.snd hr.shape
  have f1 : ref.turned.h = h := e1
  have f2 : ref.turned.w = w := e2
  have e : ∀ r n : SubImg, r.h = h → r.w = w → sHat peak r n b 0 0 = ⟨h, w, fun k l => (dZp r n b : ℂ) *
      (dHat r n b 0 0).px k l * (starRingEnd ℂ) ((pHat r n b).px k l) *
        shiftPhase h w (subCenter peak (subP r n b)) k l⟩ := by
    intro r n a c
    subst a c
    rfl
  rw [e ref.turned new.turned f1 f2, e ref new e1 e2]
  have r := ifftOrtho_mirror h w (fun k l => (dZp ref new b : ℂ) * (dHat ref new b 0 0).px k l *
      (starRingEnd ℂ) ((pHat ref new b).px k l) * shiftPhase h w (subCenter peak (subP ref new b)) k l)
    (fun k l => (dZp ref.turned new.turned b : ℂ) * (dHat ref.turned new.turned b 0 0).px k l *
      (starRingEnd ℂ) ((pHat ref.turned new.turned b).px k l) *
        shiftPhase h w (subCenter peak (subP ref.turned new.turned b)) k l) ((h : ℤ) - 1) ((w : ℤ) - 1) h0 w0
    (fun k hk l hl => by
      rw [dHat_turned h w h0 w0 ref new hr hn b k l hk hl, pHat_turned h w h0 w0 ref new hr hn b k l hk hl, hc,
        show dZp ref.turned new.turned b = dZp ref new b from rfl]
      simp only [map_mul, Complex.conj_conj, Complex.conj_ofReal]
      have p1 := shiftPhase_conj_mul h w ((((ref.psf.h : ℤ) - 1 : ℤ) : ℝ), (((ref.psf.w : ℤ) - 1 : ℤ) : ℝ)) k l
      have p2 := shiftPhase_conj_mul h w ((((new.psf.h : ℤ) - 1 : ℤ) : ℝ), (((new.psf.w : ℤ) - 1 : ℤ) : ℝ)) k l
      have q : shiftPhase h w ((ref.psf.h + new.psf.h - 2 : ℝ) - (subCenter peak (subP ref new b)).1,
          (ref.psf.w + new.psf.w - 2 : ℝ) - (subCenter peak (subP ref new b)).2) k l =
          shiftPhase h w ((((ref.psf.h : ℤ) - 1 : ℤ) : ℝ), (((ref.psf.w : ℤ) - 1 : ℤ) : ℝ)) k l *
            shiftPhase h w ((((new.psf.h : ℤ) - 1 : ℤ) : ℝ), (((new.psf.w : ℤ) - 1 : ℤ) : ℝ)) k l *
            (starRingEnd ℂ) (shiftPhase h w (subCenter peak (subP ref new b)) k l) := by
        have t : (starRingEnd ℂ) (shiftPhase h w (subCenter peak (subP ref new b)) k l) =
            shiftPhase h w (negPair (subCenter peak (subP ref new b))) k l := by
          unfold shiftPhase negPair
          rw [map_mul, conj_tw, conj_tw]
          simp only [mul_neg]
        rw [t, ← shiftPhase_add, ← shiftPhase_add]
        unfold negPair
        push_cast
        congr 2 <;> ring
      rw [q]
      unfold turnPhase
      generalize shiftPhase h w ((((ref.psf.h : ℤ) - 1 : ℤ) : ℝ), (((ref.psf.w : ℤ) - 1 : ℤ) : ℝ)) k l = A at p1 ⊢
      generalize shiftPhase h w ((((new.psf.h : ℤ) - 1 : ℤ) : ℝ), (((new.psf.w : ℤ) - 1 : ℤ) : ℝ)) k l = B at p2 ⊢
      generalize shiftPhase h w ((((h : ℤ) - 1 : ℤ) : ℝ), (((w : ℤ) - 1 : ℤ) : ℝ)) k l = T
      linear_combination ((dZp ref new b : ℂ) * (starRingEnd ℂ) ((dHat ref new b 0 0).px k l) * T * (pHat ref new b).px k l *
        (starRingEnd ℂ) (shiftPhase h w (subCenter peak (subP ref new b)) k l)) * (p1 * (B * (starRingEnd ℂ) B) + p2)) i j
  rw [turnAt_last h i hi, turnAt_last w j hj] at r
  exact r

/-- C144: the score of the turned images. Its numerator turns about the middle of the image; the noise of either image is
reflected about a point that depends on the size of the PSF's stamp. -/
theorem score_turned (peak : Img ℝ → ℕ × ℕ) (z b : ℝ) (hfr : ref.filled.shape = (h, w)) (hfn : new.filled.shape = (h, w))
    (hc : subCenter peak (subP ref.turned new.turned b) =
      ((ref.psf.h + new.psf.h - 2 : ℝ) - (subCenter peak (subP ref new b)).1,
        (ref.psf.w + new.psf.w - 2 : ℝ) - (subCenter peak (subP ref new b)).2)) (i j : ℕ) (hi : i < h) (hj : j < w) :
    (sCorr peak ref.turned new.turned z b 0 0).px i j =
      (starRingEnd ℂ) ((ifftOrtho (sHat peak ref new b 0 0)).px (h - 1 - i) (w - 1 - j)) /
        csqrt ((starRingEnd ℂ) ((subV new.filled (subKn ref new z b)).px (turnAt h (h - new.psf.h) i)
            (turnAt w (w - new.psf.w) j)) +
          (starRingEnd ℂ) ((subV ref.filled (subKr ref new z b)).px (turnAt h (h - ref.psf.h) i)
            (turnAt w (w - ref.psf.w) j))) := by
  have a1 := num_turned h w h0 w0 ref new hr hn peak b hc i j hi hj
  have a2 := Vn_turned h w h0 w0 ref new hr hn hfn z b i j
  have a3 := Vr_turned h w h0 w0 ref new hr hn hfr z b i j
  change (ifftOrtho (sHat peak ref.turned new.turned b 0 0)).px i j /
    csqrt ((subV new.turned.filled (subKn ref.turned new.turned z b)).px i j +
      (subV ref.turned.filled (subKr ref.turned new.turned z b)).px i j) = _
  rw [a1, a2, a3]

end

/-! ## Worked instances -/

theorem dotPsf_turned : dotPsf.turned = dotPsf := by
  unfold dotPsf Img.turned
  simp only []
  congr 1
  funext i j
  by_cases q : j = 1
  · subst q
    rfl
  · rw [if_neg q, if_neg (by omega)]

theorem dotSub_turned (u : ℕ → ℝ) : (dotSub u).turned = dotSub fun j => u (2 - j) := by
  unfold SubImg.turned dotSub
  simp only [dotPsf_turned]
  rfl

theorem dot_turnable (u : ℕ → ℝ) : Turnable (dotSub u) 1 3 := by
  refine ⟨rfl, le_refl _, le_refl _, ?_, dot_idle, ?_⟩
  · change ∑ i ∈ range 1, ∑ j ∈ range 3, (if j = 1 then (1 : ℝ) else 0) ≠ 0
    simp
  · change GuardIdle 1 3 dotPsf.turned
    rw [dotPsf_turned]
    exact dot_idle

/-- Two images with one dot for PSF, turned: D is turned. -/
theorem dot_turned (u v : ℕ → ℝ) :
    ∃ out out', subtract { tinyEnv 1 1 with gamma := Img.const 1 3 0 } ⟨false, false, true⟩ (dotSub u) (dotSub v) = .ok out ∧
      subtract { tinyEnv 1 1 with gamma := Img.const 1 3 0 } ⟨false, false, true⟩ (dotSub fun j => u (2 - j))
        (dotSub fun j => v (2 - j)) = .ok out' ∧
      ∀ j < 3, out'.D.px 0 j = (starRingEnd ℂ) (out.D.px 0 (2 - j)) ∧ out'.P.px 0 j = out.P.px 0 ((4 - j) % 3) := by
  rcases subtract_turned { tinyEnv 1 1 with gamma := Img.const 1 3 0 } false true (dotSub u) (dotSub v) 1 3 (by norm_num)
    (by norm_num) (dot_turnable u) (dot_turnable v) rfl (by intro a h; cases h) (by intro a h; cases h) (Or.inl rfl) with
    ⟨er, e, _⟩ | ⟨out, out', e, e', _, hD⟩
  · obtain ⟨out, q, _⟩ := subtract_returns { tinyEnv 1 1 with gamma := Img.const 1 3 0 } true (dotSub u) (dotSub v) 1 3 rfl rfl
      (by intro a h; cases h) (by intro a h; cases h) (1, 1) rfl (Or.inl rfl)
    rw [e] at q
    cases q
  · rw [dotSub_turned, dotSub_turned] at e'
    refine ⟨out, out', e, e', fun j hj => ?_⟩
    obtain ⟨d1, d2⟩ := hD 0 (by norm_num) j hj
    refine ⟨d1, d2.trans ?_⟩
    change out.P.px (turnAt 1 ((1 : ℤ) + 1 - 2) 0) (turnAt 3 ((3 : ℤ) + 3 - 2) j) = _
    interval_cases j <;> rfl

/-- C144: the score does not turn. On the turned pair the pixel at the left edge is divided by the noise of the pixel in the
middle, on the original pair its counterpart at the right edge by the noise of the pixel at the left edge. -/
theorem score_not_turned : ∃ u v : ℕ → ℝ, ∃ out out',
    subtract (tinyEnv 1 1) ⟨false, false, true⟩ (dotSub u) (dotSub v) = .ok out ∧
      subtract (tinyEnv 1 1).turned ⟨false, false, true⟩ (dotSub u).turned (dotSub v).turned = .ok out' ∧
      out.S.px 0 2 = 1 / (2 * Real.sqrt 3) / Real.sqrt (5 / 4) ∧ out'.S.px 0 0 = 1 / (2 * Real.sqrt 3) / Real.sqrt (2 / 4) ∧
      out'.S.px 0 0 ≠ out.S.px 0 2 := by
  obtain ⟨_, out, _, e, _, h1⟩ := dot_score_moves (fun _ => 0) (fun j => if j = 0 then 3 else if j = 1 then 0 else 1)
    (fun j _ => by norm_num) (fun j _ => by split_ifs <;> norm_num)
  obtain ⟨_, out', _, e', _, h2⟩ := dot_score_moves (fun _ => 0)
    (fun j => (fun j => if j = 0 then 3 else if j = 1 then 0 else 1 : ℕ → ℝ) (2 - j))
    (fun j _ => by norm_num) (fun j _ => by simp only; split_ifs <;> norm_num)
  have a : out.S.px 0 2 = 1 / (2 * Real.sqrt 3) / Real.sqrt (5 / 4) := by
    rw [(h1 2 (by norm_num)).2]
    norm_num
  have b : out'.S.px 0 0 = 1 / (2 * Real.sqrt 3) / Real.sqrt (2 / 4) := by
    rw [(h2 0 (by norm_num)).2]
    norm_num
  refine ⟨fun _ => 0, fun j => if j = 0 then 3 else if j = 1 then 0 else 1, out, out', e, ?_, a, b, ?_⟩
  · rw [dotSub_turned, dotSub_turned]
    exact e'
  · rw [a, b]
    have lt : Real.sqrt (2 / 4) < Real.sqrt (5 / 4) := Real.sqrt_lt_sqrt (by norm_num) (by norm_num)
    have p : 0 < Real.sqrt (2 / 4) := Real.sqrt_pos.2 (by norm_num)
    exact (div_lt_div_of_pos_left (by positivity) p lt).ne'

/-! ## coadd -/

/-- The image object of the turned arrays. -/
noncomputable def SinglePsf.turned (d : SinglePsf) : SinglePsf :=
  ⟨d.interped.turned, d.psf.turned, ((d.psf.h : ℝ) - 1 - d.com.1, (d.psf.w : ℝ) - 1 - d.com.2), d.zp, d.var, d.mask.turned⟩

/-- Real pixels, and a stamp of the PSF that is not larger than the image. -/
structure SinglePsf.Turnable (d : SinglePsf) (h w : ℕ) : Prop where
  sh : d.interped.h = h
  sw : d.interped.w = w
  fitsH : d.psf.h ≤ h
  fitsW : d.psf.w ≤ w
  real : ∀ i < h, ∀ j < w, (starRingEnd ℂ) (d.interped.px i j) = d.interped.px i j
  realP : ∀ i < d.psf.h, ∀ j < d.psf.w, (starRingEnd ℂ) (d.psf.px i j) = d.psf.px i j

theorem single_psfHat_turned (d : SinglePsf) (h w : ℕ) (h0 : h ≠ 0) (w0 : w ≠ 0) (hd : d.Turnable h w) (k l : ℕ) :
    d.turned.psfHat.px k l = (starRingEnd ℂ) (d.psfHat.px k l) * turnPhase h w d.psf.h d.psf.w k l := by
  obtain ⟨rfl, rfl, f1, f2, _, r2⟩ := hd
  exact padded_turned d.psf d.interped.h d.interped.w h0 w0 f1 f2 r2 k l

theorem sHatComp_turned (d : SinglePsf) (h w : ℕ) (h0 : h ≠ 0) (w0 : w ≠ 0) (hd : d.Turnable h w) (k l : ℕ) :
    d.turned.sHatComp.px k l = (starRingEnd ℂ) (d.sHatComp.px k l) * turnPhase h w h w k l := by
  have a := single_psfHat_turned d h w h0 w0 hd k l
  obtain ⟨rfl, rfl, f1, f2, r1, _⟩ := hd
  have b := fftOrtho_turned d.interped h0 w0 r1 k l
  change ((d.zp / d.var ^ 2 : ℝ) : ℂ) * ((fftOrtho d.interped.turned).px k l * (starRingEnd ℂ) (d.turned.psfHat.px k l) *
      shiftPhase d.interped.h d.interped.w ((d.psf.h : ℝ) - 1 - d.com.1, (d.psf.w : ℝ) - 1 - d.com.2) k l) =
    (starRingEnd ℂ) (((d.zp / d.var ^ 2 : ℝ) : ℂ) * ((fftOrtho d.interped).px k l * (starRingEnd ℂ) (d.psfHat.px k l) *
      shiftPhase d.interped.h d.interped.w d.com k l)) * _
  have q : shiftPhase d.interped.h d.interped.w ((d.psf.h : ℝ) - 1 - d.com.1, (d.psf.w : ℝ) - 1 - d.com.2) k l =
      turnPhase d.interped.h d.interped.w d.psf.h d.psf.w k l *
        (starRingEnd ℂ) (shiftPhase d.interped.h d.interped.w d.com k l) := by
    have t : (starRingEnd ℂ) (shiftPhase d.interped.h d.interped.w d.com k l) =
        shiftPhase d.interped.h d.interped.w (negPair d.com) k l := by
      unfold shiftPhase negPair
      rw [map_mul, conj_tw, conj_tw]
      simp only [mul_neg]
    unfold turnPhase
    rw [t, ← shiftPhase_add]
    unfold negPair
    push_cast
    congr 2
  have p := shiftPhase_conj_mul d.interped.h d.interped.w ((((d.psf.h : ℤ) - 1 : ℤ) : ℝ), (((d.psf.w : ℤ) - 1 : ℤ) : ℝ)) k l
  rw [a, b, q]
  simp only [map_mul, Complex.conj_conj, Complex.conj_ofReal]
  unfold turnPhase
  linear_combination (((d.zp / d.var ^ 2 : ℝ) : ℂ) * (starRingEnd ℂ) ((fftOrtho d.interped).px k l) * d.psfHat.px k l *
    (starRingEnd ℂ) (shiftPhase d.interped.h d.interped.w d.com k l) *
    shiftPhase d.interped.h d.interped.w ((((d.interped.h : ℤ) - 1 : ℤ) : ℝ), (((d.interped.w : ℤ) - 1 : ℤ) : ℝ)) k l) * p

/-- C144: half a turn of every image turns the coadd and its mask and leaves its PSF as it is. -/
theorem coadd_turned (lt lt' : List CoImg → List CoImg → Option Bool) {n : ℕ} (hn : 0 < n)
    (d : Fin n → SinglePsf) (h w psfShape : ℕ) (h0 : h ≠ 0) (w0 : w ≠ 0) (procs procs' : ℤ)
    (hd : ∀ m, (d m).Turnable h w) (hmask : ∀ m, (d m).mask.HasShape h w)
    (hp : procs ≤ n) (hp' : procs ≤ 2 ^ 25) (hb : procs * n ≤ 2 ^ 50)
    (hq : procs' ≤ n) (hq' : procs' ≤ 2 ^ 25) (hc : procs' * n ≤ 2 ^ 50) :
    ∃ out out', coaddCore lt ((List.ofFn d).map SinglePsf.toCoImg) psfShape procs = .ok out ∧
      coaddCore lt' ((List.ofFn fun m => (d m).turned).map SinglePsf.toCoImg) psfShape procs' = .ok out' ∧
      out'.Pr = out.Pr ∧ (∀ i < h, ∀ j < w, out'.R.px i j = (starRingEnd ℂ) (out.R.px (h - 1 - i) (w - 1 - j)) ∧
        out'.mask.marks i j = out.mask.marks (h - 1 - i) (w - 1 - j)) ∧ (out'.mask = none ↔ out.mask = none) := by
  obtain ⟨out, e, eR, eP, em, en⟩ := coadd_single_spec lt hn d h w psfShape procs
    (fun m => ⟨(hd m).sh, (hd m).sw, hmask m⟩) hp hp' hb
  obtain ⟨out', e', eR', eP', em', en'⟩ := coadd_single_spec lt' hn (fun m => (d m).turned) h w psfShape procs'
    (fun m => ⟨(hd m).sh, (hd m).sw, by
      intro a ha
      obtain ⟨a0, h0, rfl⟩ := Option.map_eq_some_iff.1 ha
      exact hmask m a0 h0⟩) hq hq' hc
  have eS : ∀ k l, specS ((List.ofFn fun m => (d m).turned).map SinglePsf.toCoImg) k l =
      (starRingEnd ℂ) (specS ((List.ofFn d).map SinglePsf.toCoImg) k l) * turnPhase h w h w k l := by
    intro k l
    rw [specS_ofFn, specS_ofFn, map_sum, Finset.sum_mul]
    exact Finset.sum_congr rfl fun m _ => sHatComp_turned (d m) h w h0 w0 (hd m) k l
  have eW : specP ((List.ofFn fun m => (d m).turned).map SinglePsf.toCoImg) =
      specP ((List.ofFn d).map SinglePsf.toCoImg) := by
    funext k l
    rw [specP_ofFn, specP_ofFn]
    refine Finset.sum_congr rfl fun m _ => ?_
    change _ * ((d m).turned.psfHat.px k l * (starRingEnd ℂ) ((d m).turned.psfHat.px k l)) =
      _ * ((d m).psfHat.px k l * (starRingEnd ℂ) ((d m).psfHat.px k l))
    rw [Complex.mul_conj, Complex.mul_conj, single_psfHat_turned (d m) h w h0 w0 (hd m) k l]
    unfold turnPhase
    rw [normSq_mul, normSq_shiftPhase, normSq_conj, mul_one]
    rfl
  have conjW : ∀ k l, (starRingEnd ℂ) (csqrt (specP ((List.ofFn d).map SinglePsf.toCoImg) k l)) =
      csqrt (specP ((List.ofFn d).map SinglePsf.toCoImg) k l) := by
    intro k l
    rw [specP_single, csqrt_ofReal_nonneg, Complex.conj_ofReal]
    unfold zackayPower
    exact Finset.sum_nonneg fun m _ => mul_nonneg (by positivity) (normSq_nonneg _)
  have hm : ∀ m i j, (d m).turned.mask.marks i j = (d m).mask.marks (h - 1 - i) (w - 1 - j) :=
    fun m i j => marks_turned _ h w (hmask m) i j
  refine ⟨out, out', e, e', by rw [eP, eP', eW], fun i hi j hj => ⟨?_, ?_⟩, ?_⟩
  · rw [eR, eR']
    have r := ifftDefault_mirror h w (coaddRhat ((List.ofFn d).map SinglePsf.toCoImg))
      (coaddRhat ((List.ofFn fun m => (d m).turned).map SinglePsf.toCoImg)) ((h : ℤ) - 1) ((w : ℤ) - 1) h0 w0
      (fun k _ l _ => by
        unfold coaddRhat
        rw [eS, eW, map_div₀, conjW]
        exact mul_div_right_comm _ _ _) i j
    rw [turnAt_last h i hi, turnAt_last w j hj] at r
    exact r
  · exact marks_agree _ _ _ _ (em' i hi j hj) (em (h - 1 - i) (by omega) (w - 1 - j) (by omega)) fun m => hm m i j
  · rw [en, en']
    constructor
    · intro q m i hi j hj
      have := q m (h - 1 - i) (by omega) (w - 1 - j) (by omega)
      rw [hm, show h - 1 - (h - 1 - i) = i by omega, show w - 1 - (w - 1 - j) = j by omega] at this
      exact this
    · intro q m i hi j hj
      rw [hm]
      exact q m _ (by omega) _ (by omega)

theorem twoExposures_turnable (m : Fin 2) : (twoExposures m).Turnable 1 3 := by
  refine ⟨rfl, rfl, le_refl _, by change 2 ≤ 3; norm_num, fun i _ j _ => ?_, fun i _ j _ => ?_⟩
  · change (starRingEnd ℂ) (if j = m.val then (5 : ℂ) else 1) = if j = m.val then (5 : ℂ) else 1
    split_ifs
    · exact map_ofNat _ 5
    · exact map_one _
  · change (starRingEnd ℂ) (if j = 0 then (2 / 3 : ℂ) else 1 / 3) = if j = 0 then (2 / 3 : ℂ) else 1 / 3
    split_ifs
    · rw [map_div₀, map_ofNat, map_ofNat]
    · rw [map_div₀, map_one, map_ofNat]

/-- Turned, the coadd of the two exposures has its masked pixel at the left edge instead of the right. -/
theorem twoExposures_turned (lt : List CoImg → List CoImg → Option Bool) :
    ∃ out out', coaddCore lt ((List.ofFn twoExposures).map SinglePsf.toCoImg) 0 1 = .ok out ∧
      coaddCore lt ((List.ofFn fun m => (twoExposures m).turned).map SinglePsf.toCoImg) 0 2 = .ok out' ∧
      out'.R.px 0 2 = (starRingEnd ℂ) (out.R.px 0 0) ∧ out'.Pr = out.Pr ∧ out.mask.marks 0 2 = true ∧
      out'.mask.marks 0 0 = true := by
  obtain ⟨out, out', e, e', hP, hR, _⟩ := coadd_turned lt lt (by norm_num) twoExposures 1 3 0 (by norm_num) (by norm_num)
    1 2 twoExposures_turnable (fun m => (twoExposures_shape m).2.2) (by norm_num) (by norm_num) (by norm_num) (by norm_num)
    (by norm_num) (by norm_num)
  obtain ⟨out2, e2, _, _, k1, _⟩ := coadd_single_spec lt (by norm_num) twoExposures 1 3 0 1 twoExposures_shape (by norm_num)
    (by norm_num) (by norm_num)
  rw [e] at e2
  cases e2
  have m2 : out.mask.marks 0 2 = true := (k1 0 (by norm_num) 2 (by norm_num)).2 ⟨1, by simp [twoExposures, NMask.marks]⟩
  refine ⟨out, out', e, e', (hR 0 (by norm_num) 2 (by norm_num)).1, hP, m2, ?_⟩
  rw [(hR 0 (by norm_num) 0 (by norm_num)).2]
  exact m2

end PI
