import Verif.Props.CoaddSymm
import Verif.Props.Units
import Verif.Props.FitCost
import Verif.Props.ScoreNoise

/-!
# Property C131: where the star sits in the stamp of the PSF

The stamp that holds a PSF can be enlarged by empty rows and columns on any side. D does not notice, P moves along, R does
not notice either; the score does, because its denominator is not recentred.
-/

namespace PI

open Complex Finset

/-- The stamp `p` inside a larger one of `H` rows and `W` columns that is zero elsewhere; its first pixel is at `(a, b)`. -/
def Img.framed (p : Img ℝ) (H W a b : ℕ) : Img ℝ :=
  ⟨H, W, fun i j => if a ≤ i ∧ i < a + p.h ∧ b ≤ j ∧ j < b + p.w then p.px (i - a) (j - b) else 0⟩

theorem sum_range_frame {M : Type*} [AddCommMonoid M] (n a H : ℕ) (hH : a + n ≤ H) (f : ℕ → M) :
    (∑ i ∈ range H, if a ≤ i ∧ i < a + n then f (i - a) else 0) = ∑ i ∈ range n, f i := by
  rw [← Finset.sum_filter]
  refine Finset.sum_bij' (fun i _ => i - a) (fun i _ => i + a) ?_ ?_ ?_ ?_ ?_
  · intro i hi
    rw [mem_filter] at hi
    rw [mem_range]
    omega
  · intro i hi
    rw [mem_range] at hi
    rw [mem_filter, mem_range]
    omega
  · intro i hi
    rw [mem_filter] at hi
    omega
  · intro i _
    omega
  · intro i _
    rfl

theorem sum_framed (p : Img ℝ) (H W a b : ℕ) (hH : a + p.h ≤ H) (hW : b + p.w ≤ W) (c : ℕ → ℕ → ℝ) :
    ∑ i ∈ range H, ∑ j ∈ range W, c i j * (p.framed H W a b).px i j =
      ∑ i ∈ range p.h, ∑ j ∈ range p.w, c (i + a) (j + b) * p.px i j := by
  have e : ∀ i, (∑ j ∈ range W, c i j * (p.framed H W a b).px i j) =
      if a ≤ i ∧ i < a + p.h then ∑ j ∈ range p.w, c (i - a + a) (j + b) * p.px (i - a) j else 0 := by
    intro i
    split_ifs with hi
    · rw [← sum_range_frame p.w b W hW (fun j => c (i - a + a) (j + b) * p.px (i - a) j)]
      refine Finset.sum_congr rfl fun j _ => ?_
      change c i j * (if a ≤ i ∧ i < a + p.h ∧ b ≤ j ∧ j < b + p.w then _ else 0) = _
      by_cases hj : b ≤ j ∧ j < b + p.w
      · rw [if_pos ⟨hi.1, hi.2, hj⟩, if_pos hj, Nat.sub_add_cancel hi.1, Nat.sub_add_cancel hj.1]
      · rw [if_neg (fun q => hj q.2.2), if_neg hj, mul_zero]
    · refine Finset.sum_eq_zero fun j _ => ?_
      change c i j * (if a ≤ i ∧ i < a + p.h ∧ b ≤ j ∧ j < b + p.w then _ else 0) = _
      rw [if_neg (fun q => hi ⟨q.1, q.2.1⟩), mul_zero]
  simp only [e]
  exact sum_range_frame p.h a H hH (fun i => ∑ j ∈ range p.w, c (i + a) (j + b) * p.px i j)

theorem rsum_framed (p : Img ℝ) (H W a b : ℕ) (hH : a + p.h ≤ H) (hW : b + p.w ≤ W) :
    rsum (p.framed H W a b) = rsum p := by
  have := sum_framed p H W a b hH hW (fun _ _ => 1)
  simp only [one_mul] at this
  exact this

/-- The centroid moves with the star. -/
theorem centerOfMass_framed (p : Img ℝ) (H W a b : ℕ) (hH : a + p.h ≤ H) (hW : b + p.w ≤ W) (h0 : rsum p ≠ 0) :
    centerOfMass (p.framed H W a b) = ((centerOfMass p).1 + a, (centerOfMass p).2 + b) := by
  have e1 := sum_framed p H W a b hH hW (fun i _ => (i : ℝ))
  have e2 := sum_framed p H W a b hH hW (fun _ j => (j : ℝ))
  have q1 : ∑ i ∈ range p.h, ∑ j ∈ range p.w, ((i + a : ℕ) : ℝ) * p.px i j =
      (∑ i ∈ range p.h, ∑ j ∈ range p.w, (i : ℝ) * p.px i j) + a * rsum p := by
    unfold rsum
    rw [Finset.mul_sum, ← Finset.sum_add_distrib]
    refine Finset.sum_congr rfl fun i _ => ?_
    rw [Finset.mul_sum, ← Finset.sum_add_distrib]
    refine Finset.sum_congr rfl fun j _ => ?_
    push_cast
    ring
  have q2 : ∑ i ∈ range p.h, ∑ j ∈ range p.w, ((j + b : ℕ) : ℝ) * p.px i j =
      (∑ i ∈ range p.h, ∑ j ∈ range p.w, (j : ℝ) * p.px i j) + b * rsum p := by
    unfold rsum
    rw [Finset.mul_sum, ← Finset.sum_add_distrib]
    refine Finset.sum_congr rfl fun i _ => ?_
    rw [Finset.mul_sum, ← Finset.sum_add_distrib]
    refine Finset.sum_congr rfl fun j _ => ?_
    push_cast
    ring
  rw [q1] at e1
  rw [q2] at e2
  unfold centerOfMass
  rw [rsum_framed p H W a b hH hW]
  refine Prod.ext ?_ ?_
  · change (∑ i ∈ range H, ∑ j ∈ range W, (i : ℝ) * (p.framed H W a b).px i j) / rsum p =
      (∑ i ∈ range p.h, ∑ j ∈ range p.w, (i : ℝ) * p.px i j) / rsum p + a
    rw [e1, add_div, mul_div_cancel_right₀ _ h0]
  · change (∑ i ∈ range H, ∑ j ∈ range W, (j : ℝ) * (p.framed H W a b).px i j) / rsum p =
      (∑ i ∈ range p.h, ∑ j ∈ range p.w, (j : ℝ) * p.px i j) / rsum p + b
    rw [e2, add_div, mul_div_cancel_right₀ _ h0]

theorem backBy_nat (n a i : ℕ) (ha : a < n) (hi : i < n) :
    backBy n (a : ℤ) i = if a ≤ i then i - a else i + n - a := by
  unfold backBy
  split_ifs with h
  · rw [show (i : ℤ) - a = ((i - a : ℕ) : ℤ) by omega, Int.emod_eq_of_lt (by omega) (by omega)]
    omega
  · rw [show (i : ℤ) - a = ((i + n - a : ℕ) : ℤ) - n by omega, Int.sub_emod_right,
      Int.emod_eq_of_lt (by omega) (by omega)]
    omega

/-- Padded to the image, the framed stamp is the stamp rolled to its place. -/
theorem padTo_framed (p : Img ℝ) (H W a b h w : ℕ) (hH : a + p.h ≤ H) (hW : b + p.w ≤ W) (hh : H ≤ h) (hw : W ≤ w)
    (ha : a < h) (hb : b < w) (i j : ℕ) (hi : i < h) (hj : j < w) :
    (padTo h w (toC (p.framed H W a b))).px i j = ((padTo h w (toC p)).rolled (a : ℤ) (b : ℤ)).px i j := by
  change (if i < H ∧ j < W then (((if a ≤ i ∧ i < a + p.h ∧ b ≤ j ∧ j < b + p.w then p.px (i - a) (j - b) else 0) : ℝ) : ℂ)
      else 0) =
    if backBy h (a : ℤ) i < p.h ∧ backBy w (b : ℤ) j < p.w then ((p.px (backBy h (a : ℤ) i) (backBy w (b : ℤ) j) : ℝ) : ℂ) else 0
  rw [backBy_nat h a i ha hi, backBy_nat w b j hb hj]
  by_cases c : a ≤ i ∧ i < a + p.h ∧ b ≤ j ∧ j < b + p.w
  · rw [if_pos (by omega), if_pos c, if_pos c.1, if_pos c.2.2.1, if_pos (by omega)]
  · rw [if_neg c]
    have : ¬ ((if a ≤ i then i - a else i + h - a) < p.h ∧ (if b ≤ j then j - b else j + w - b) < p.w) := by
      split_ifs <;> omega
    rw [if_neg this]
    split_ifs <;> simp

theorem fftOrtho_px_congr (x y : Img ℂ) (hh : x.h = y.h) (hw : x.w = y.w)
    (e : ∀ i < x.h, ∀ j < x.w, x.px i j = y.px i j) (k l : ℕ) : (fftOrtho x).px k l = (fftOrtho y).px k l := by
  change (∑ i ∈ range x.h, ∑ j ∈ range x.w, x.px i j * (tw x.h ((k : ℝ) * i) * tw x.w ((l : ℝ) * j))) /
      (Real.sqrt ((x.h * x.w : ℕ) : ℝ) : ℂ) =
    (∑ i ∈ range y.h, ∑ j ∈ range y.w, y.px i j * (tw y.h ((k : ℝ) * i) * tw y.w ((l : ℝ) * j))) /
      (Real.sqrt ((y.h * y.w : ℕ) : ℝ) : ℂ)
  rw [← hh, ← hw]
  refine congrArg₂ _ (Finset.sum_congr rfl fun i hi => Finset.sum_congr rfl fun j hj => ?_) rfl
  rw [e i (mem_range.1 hi) j (mem_range.1 hj)]

/-- The transform of the framed stamp is that of the stamp, with a phase. -/
theorem fft_framed (p : Img ℝ) (H W a b h w : ℕ) (hH : a + p.h ≤ H) (hW : b + p.w ≤ W) (hh : H ≤ h) (hw : W ≤ w)
    (ha : a < h) (hb : b < w) (k l : ℕ) :
    (fftOrtho (padTo h w (toC (p.framed H W a b)))).px k l =
      (fftOrtho (padTo h w (toC p))).px k l * shiftPhase h w (((a : ℤ) : ℝ), ((b : ℤ) : ℝ)) k l := by
  refine (fftOrtho_px_congr (padTo h w (toC (p.framed H W a b))) ((padTo h w (toC p)).rolled (a : ℤ) (b : ℤ)) rfl rfl
    (fun i hi j hj => padTo_framed p H W a b h w hH hW hh hw ha hb i j hi hj) k l).trans ?_
  exact fftOrtho_rolled (padTo h w (toC p)) a b (show h ≠ 0 by omega) (show w ≠ 0 by omega) k l

/-- What the two image objects have in common: everything but the place of the star in the stamp, which differs by
`(a, b)`. -/
structure Restamped (d d' : SubImg) (a b : ℤ) : Prop where
  interped : d'.interped = d.interped
  mask : d'.mask = d.mask
  filled : d'.filled = d.filled
  var : d'.var = d.var
  hat : ∀ k < d.interped.h, ∀ l < d.interped.w, d'.psfHat.px k l =
    d.psfHat.px k l * shiftPhase d.interped.h d.interped.w ((a : ℝ), (b : ℝ)) k l
  com : centerOfMass d'.psf = ((centerOfMass d.psf).1 + a, (centerOfMass d.psf).2 + b)

/-- The image object with its PSF in a larger stamp. -/
def SubImg.framed (d : SubImg) (H W a b : ℕ) : SubImg := { d with psf := d.psf.framed H W a b }

theorem restamped_framed (d : SubImg) (H W a b : ℕ) (hH : a + d.psf.h ≤ H) (hW : b + d.psf.w ≤ W) (hh : H ≤ d.interped.h)
    (hw : W ≤ d.interped.w) (h0 : rsum d.psf ≠ 0) (hg : GuardIdle d.interped.h d.interped.w d.psf)
    (hg' : GuardIdle d.interped.h d.interped.w (d.psf.framed H W a b)) :
    Restamped d (d.framed H W a b) a b where
  interped := rfl
  mask := rfl
  filled := rfl
  var := rfl
  com := centerOfMass_framed d.psf H W a b hH hW h0
  hat k hk l hl := by
    have hp : d.psf.h ≠ 0 ∧ d.psf.w ≠ 0 := by
      refine ⟨fun q => h0 ?_, fun q => h0 ?_⟩
      · unfold rsum
        rw [q, range_zero, sum_empty]
      · unfold rsum
        rw [q]
        simp
    rw [psfHat_idle (d.framed H W a b) d.interped.h d.interped.w rfl rfl hg' k l hk hl,
      psfHat_idle d d.interped.h d.interped.w rfl rfl hg k l hk hl]
    exact fft_framed d.psf H W a b d.interped.h d.interped.w hH hW hh hw (by omega) (by omega) k l

theorem shiftPhase_conj_mul (h w : ℕ) (d : ℝ × ℝ) (k l : ℕ) :
    shiftPhase h w d k l * (starRingEnd ℂ) (shiftPhase h w d k l) = 1 := by
  unfold shiftPhase
  rw [map_mul, conj_tw, conj_tw, mul_mul_mul_comm, tw_neg_mul, tw_neg_mul, mul_one]

theorem shiftPhase_neg_mul (h w : ℕ) (d : ℝ × ℝ) (k l : ℕ) :
    shiftPhase h w d k l * shiftPhase h w (negPair d) k l = 1 := by
  unfold shiftPhase negPair
  simp only [mul_neg]
  rw [mul_mul_mul_comm, tw_neg_mul, tw_neg_mul, mul_one]

theorem negPair_add (c : ℝ × ℝ) (a b : ℝ) : negPair (c.1 + a, c.2 + b) = ((negPair c).1 + (negPair (a, b)).1, (negPair c).2 + (negPair (a, b)).2) := by
  unfold negPair
  simp only []
  rw [neg_add, neg_add]

section
variable (ref ref' new new' : SubImg) (h w : ℕ) (hr : ref.interped.shape = (h, w)) (hn : new.interped.shape = (h, w))
    (a b c e : ℤ) (Rr : Restamped ref ref' a b) (Rn : Restamped new new' c e)

/-- The part of `dHatR` that one image contributes. -/
theorem restamped_centred (d d' : SubImg) (hd : d.interped.shape = (h, w)) (R : Restamped d d' a b) (k l : ℕ) (hk : k < h)
    (hl : l < w) :
    d'.psfHat.px k l * shiftPhase d'.h d'.w (negPair (centerOfMass d'.psf)) k l =
      d.psfHat.px k l * shiftPhase d.h d.w (negPair (centerOfMass d.psf)) k l := by
  have e1 : d.interped.h = h := congrArg Prod.fst hd
  have e2 : d.interped.w = w := congrArg Prod.snd hd
  have q1 : d'.h = d.h := congrArg Img.h R.interped
  have q2 : d'.w = d.w := congrArg Img.w R.interped
  rw [R.hat k (by omega) l (by omega), q1, q2, R.com, negPair_add, shiftPhase_add]
  change d.psfHat.px k l * shiftPhase d.h d.w ((a : ℝ), (b : ℝ)) k l * _ = _
  have u := shiftPhase_neg_mul d.h d.w ((a : ℝ), (b : ℝ)) k l
  linear_combination d.psfHat.px k l * shiftPhase d.h d.w (negPair (centerOfMass d.psf)) k l * u

theorem restamped_interpedHat (d d' : SubImg) (R : Restamped d d' a b) : d'.interpedHat = d.interpedHat := by
  unfold SubImg.interpedHat
  rw [R.interped]

include hn Rr Rn in
theorem restamped_dHatR (k l : ℕ) (hk : k < h) (hl : l < w) : (dHatR ref' new').px k l = (dHatR ref new).px k l := by
  have u := restamped_centred h w c e new new' hn Rn k l hk hl
  change new'.psfHat.px k l * ref'.interpedHat.px k l * shiftPhase new'.h new'.w _ k l =
    new.psfHat.px k l * ref.interpedHat.px k l * shiftPhase new.h new.w _ k l
  rw [restamped_interpedHat a b ref ref' Rr, mul_right_comm, u, mul_right_comm]

include hr Rr Rn in
theorem restamped_dHatN (k l : ℕ) (hk : k < h) (hl : l < w) : (dHatN ref' new').px k l = (dHatN ref new).px k l := by
  have u := restamped_centred h w a b ref ref' hr Rr k l hk hl
  change ref'.psfHat.px k l * new'.interpedHat.px k l * shiftPhase ref'.h ref'.w _ k l =
    ref.psfHat.px k l * new.interpedHat.px k l * shiftPhase ref.h ref.w _ k l
  rw [restamped_interpedHat c e new new' Rn, mul_right_comm, u, mul_right_comm]

theorem restamped_power (d d' : SubImg) (hd : d.interped.shape = (h, w)) (R : Restamped d d' a b) (k l : ℕ) (hk : k < h)
    (hl : l < w) :
    d'.psfHat.px k l * (starRingEnd ℂ) (d'.psfHat.px k l) = d.psfHat.px k l * (starRingEnd ℂ) (d.psfHat.px k l) := by
  have e1 : d.interped.h = h := congrArg Prod.fst hd
  have e2 : d.interped.w = w := congrArg Prod.snd hd
  rw [R.hat k (by omega) l (by omega), map_mul]
  have u := shiftPhase_conj_mul d.interped.h d.interped.w ((a : ℝ), (b : ℝ)) k l
  linear_combination d.psfHat.px k l * (starRingEnd ℂ) (d.psfHat.px k l) * u

include hr hn Rr Rn in
theorem restamped_normHat (s : ℝ) (k l : ℕ) (hk : k < h) (hl : l < w) : normHat ref' new' s k l = normHat ref new s k l := by
  unfold normHat
  rw [mul_assoc _ (ref'.psfHat.px k l), mul_assoc _ (new'.psfHat.px k l), mul_assoc _ (ref.psfHat.px k l),
    mul_assoc _ (new.psfHat.px k l), restamped_power h w a b ref ref' hr Rr k l hk hl,
    restamped_power h w c e new new' hn Rn k l hk hl, Rr.var, Rn.var]

include hr Rr in
theorem restamped_dims : ref.h = h ∧ ref.w = w ∧ ref'.h = h ∧ ref'.w = w := by
  have e1 : ref.interped.h = h := congrArg Prod.fst hr
  have e2 : ref.interped.w = w := congrArg Prod.snd hr
  have q1 : ref'.h = ref.h := congrArg Img.h Rr.interped
  have q2 : ref'.w = ref.w := congrArg Img.w Rr.interped
  exact ⟨e1, e2, q1.trans e1, q2.trans e2⟩

theorem ifftOrtho_ext (X Y : Img ℂ) (hh : X.h = Y.h) (hw : X.w = Y.w) (e : ∀ k < X.h, ∀ l < X.w, X.px k l = Y.px k l) :
    ifftOrtho X = ifftOrtho Y := by
  obtain ⟨x1, x2, X⟩ := X
  obtain ⟨y1, y2, Y⟩ := Y
  simp only at hh hw e
  subst hh hw
  have : ∀ i j, (ifftOrtho ⟨x1, x2, X⟩).px i j = (ifftOrtho ⟨x1, x2, Y⟩).px i j := ifftOrtho_congr x1 x2 X Y e
  change Img.mk x1 x2 (ifftOrtho ⟨x1, x2, X⟩).px = Img.mk x1 x2 (ifftOrtho ⟨x1, x2, Y⟩).px
  congr 1
  funext i j
  exact this i j

include hr hn Rr Rn in
theorem restamped_dHat (s dx dy : ℝ) (k l : ℕ) (hk : k < h) (hl : l < w) :
    (dHat ref' new' s dx dy).px k l = (dHat ref new s dx dy).px k l := by
  have er := restamped_dHatR ref ref' new new' h w hn a b c e Rr Rn k l hk hl
  have en := restamped_dHatN ref ref' new new' h w hr a b c e Rr Rn k l hk hl
  have q1 : new'.h = new.h := congrArg Img.h Rn.interped
  have q2 : new'.w = new.w := congrArg Img.w Rn.interped
  unfold dHat
  simp only []
  rw [en, restamped_normHat ref ref' new new' h w hr hn a b c e Rr Rn s k l hk hl]
  split_ifs
  · change (_ - s * (dHatR ref' new').px k l) / _ = (_ - s * (dHatR ref new).px k l) / _
    rw [er]
  · change (_ - s * (dHatR ref' new').px k l * shiftPhase new'.h new'.w _ k l) / _ =
      (_ - s * (dHatR ref new).px k l * shiftPhase new.h new.w _ k l) / _
    rw [er, q1, q2]

include hr hn Rr Rn in
theorem restamped_D (s dx dy : ℝ) : ifftOrtho (dHat ref' new' s dx dy) = ifftOrtho (dHat ref new s dx dy) := by
  obtain ⟨d1, d2, d3, d4⟩ := restamped_dims ref ref' h w hr a b Rr
  refine ifftOrtho_ext _ _ (d3.trans d1.symm) (d4.trans d2.symm) fun k hk l hl => ?_
  change k < ref'.h at hk
  change l < ref'.w at hl
  exact restamped_dHat ref ref' new new' h w hr hn a b c e Rr Rn s dx dy k l (by omega) (by omega)

include Rr Rn in
theorem restamped_dZp (s : ℝ) : dZp ref' new' s = dZp ref new s := by
  unfold dZp
  rw [Rr.var, Rn.var]

include hr hn Rr Rn in
theorem restamped_pHat (s : ℝ) (k l : ℕ) (hk : k < h) (hl : l < w) :
    (pHat ref' new' s).px k l = (pHat ref new s).px k l * shiftPhase h w (((a + c : ℤ) : ℝ), ((b + e : ℤ) : ℝ)) k l := by
  have r1 : ref.interped.h = h := congrArg Prod.fst hr
  have r2 : ref.interped.w = w := congrArg Prod.snd hr
  have n1 : new.interped.h = h := congrArg Prod.fst hn
  have n2 : new.interped.w = w := congrArg Prod.snd hn
  unfold pHat
  simp only []
  rw [restamped_normHat ref ref' new new' h w hr hn a b c e Rr Rn s k l hk hl, restamped_dZp ref ref' new new' a b c e Rr Rn,
    Rr.hat k (by omega) l (by omega), Rn.hat k (by omega) l (by omega), r1, r2, n1, n2]
  push_cast
  rw [shiftPhase_add h w ((a : ℝ), (b : ℝ)) ((c : ℝ), (e : ℝ))]
  ring

include hr hn Rr Rn in
/-- The PSF of the difference moves by both displacements. -/
theorem restamped_subP (s : ℝ) : (subP ref' new' s).Same ((subP ref new s).rolled (a + c) (b + e)) := by
  obtain ⟨d1, d2, d3, d4⟩ := restamped_dims ref ref' h w hr a b Rr
  refine ⟨d3.trans d1.symm, d4.trans d2.symm, fun i hi j hj => ?_⟩
  change i < ref'.h at hi
  change j < ref'.w at hj
  have u := ifftOrtho_ext (pHat ref' new' s) (fourierShift (pHat ref new s) (((a + c : ℤ) : ℝ), ((b + e : ℤ) : ℝ)))
    (d3.trans d1.symm) (d4.trans d2.symm) (fun k hk l hl => by
      change k < ref'.h at hk
      change l < ref'.w at hl
      rw [restamped_pHat ref ref' new new' h w hr hn a b c e Rr Rn s k l (by omega) (by omega)]
      change _ = (pHat ref new s).px k l * shiftPhase ref.h ref.w _ k l
      rw [d1, d2])
  change ((ifftOrtho (pHat ref' new' s)).px i j).re = _
  rw [u, ifftOrtho_shift (a + c) (b + e) (pHat ref new s) i j (by change i < ref.h; omega) (by change j < ref.w; omega)]
  rfl

/-- The image whose windowed sum the shift fits minimise. -/
noncomputable def residOf (h w : ℕ) (n r : Img ℂ) (g : Img ℝ) (b : ℝ) : Img ℝ :=
  ⟨h, w, fun i j => (n.px i j - r.px i j * b - (g.px i j : ℂ)).re⟩

theorem shiftResidual_eq (gamma : Img ℝ) (ref new : SubImg) (b dx dy : ℝ) :
    shiftResidual gamma ref new b dx dy = residOf ref.h ref.w
      (ifftOrtho ⟨ref.h, ref.w, fun k l => (dHatN ref new).px k l / csqrt (normHat ref new b k l)⟩)
      (ifftOrtho (fourierShift ⟨ref.h, ref.w, fun k l => (dHatR ref new).px k l / csqrt (normHat ref new b k l)⟩ (dx, dy)))
      (rollFlat (gammaP gamma ref new b) (roundReal dx) (roundReal dy)) b := rfl

theorem ifftOrtho_mk_congr (h w h' w' : ℕ) (hh : h' = h) (hw : w' = w) (F G : ℕ → ℕ → ℂ)
    (q : ∀ k < h, ∀ l < w, F k l = G k l) : ifftOrtho ⟨h', w', F⟩ = ifftOrtho ⟨h, w, G⟩ := by
  subst hh hw
  exact ifftOrtho_ext _ _ rfl rfl q

theorem ifftOrtho_shift_congr (h w h' w' : ℕ) (hh : h' = h) (hw : w' = w) (F G : ℕ → ℕ → ℂ) (d : ℝ × ℝ)
    (q : ∀ k < h, ∀ l < w, F k l = G k l) : ifftOrtho (fourierShift ⟨h', w', F⟩ d) = ifftOrtho (fourierShift ⟨h, w, G⟩ d) := by
  subst hh hw
  refine ifftOrtho_ext _ _ rfl rfl fun k hk l hl => ?_
  change F k l * shiftPhase h' w' d k l = G k l * shiftPhase h' w' d k l
  rw [q k hk l hl]

include hr hn Rr Rn in
theorem restamped_shiftResidual (gamma : Img ℝ) (s dx dy : ℝ) :
    shiftResidual gamma ref' new' s dx dy = shiftResidual gamma ref new s dx dy := by
  obtain ⟨d1, d2, d3, d4⟩ := restamped_dims ref ref' h w hr a b Rr
  have eg : gammaP gamma ref' new' s = gammaP gamma ref new s := by
    unfold gammaP
    rw [Rr.var, Rn.var]
  rw [shiftResidual_eq, shiftResidual_eq, eg,
    ifftOrtho_mk_congr ref.h ref.w ref'.h ref'.w (by omega) (by omega) _
      (fun k l => (dHatN ref new).px k l / csqrt (normHat ref new s k l)) (fun k hk l hl => by
        rw [restamped_dHatN ref ref' new new' h w hr a b c e Rr Rn k l (by omega) (by omega),
          restamped_normHat ref ref' new new' h w hr hn a b c e Rr Rn s k l (by omega) (by omega)]),
    ifftOrtho_shift_congr ref.h ref.w ref'.h ref'.w (by omega) (by omega) _
      (fun k l => (dHatR ref new).px k l / csqrt (normHat ref new s k l)) _ (fun k hk l hl => by
        rw [restamped_dHatR ref ref' new new' h w hn a b c e Rr Rn k l (by omega) (by omega),
          restamped_normHat ref ref' new new' h w hr hn a b c e Rr Rn s k l (by omega) (by omega)]),
    d3, d4, d1, d2]

/-- The sum the scale fits minimise. -/
noncomputable def scaleOf (m : NMask) (h w : ℕ) (n r : Img ℂ) (g : Img ℝ) (b : ℝ) : ℝ :=
  ∑ i ∈ Finset.range h, ∑ j ∈ Finset.range w, if m.marks i j then 0 else |(n.px i j - (g.px i j : ℂ) - b * r.px i j).re|

theorem scaleCost_eq (gamma : Img ℝ) (m : NMask) (ref new : SubImg) (b : ℝ) :
    scaleCost gamma m ref new b = scaleOf m ref.h ref.w
      (ifftOrtho ⟨ref.h, ref.w, fun k l => (dHatN ref new).px k l / csqrt (normHat ref new b k l)⟩)
      (ifftOrtho ⟨ref.h, ref.w, fun k l => (dHatR ref new).px k l / csqrt (normHat ref new b k l)⟩)
      (gammaP gamma ref new b) b := rfl

include hr hn Rr Rn in
theorem restamped_scaleCost (gamma : Img ℝ) (m : NMask) : scaleCost gamma m ref' new' = scaleCost gamma m ref new := by
  obtain ⟨d1, d2, d3, d4⟩ := restamped_dims ref ref' h w hr a b Rr
  funext s
  have eg : gammaP gamma ref' new' s = gammaP gamma ref new s := by
    unfold gammaP
    rw [Rr.var, Rn.var]
  rw [scaleCost_eq, scaleCost_eq, eg,
    ifftOrtho_mk_congr ref.h ref.w ref'.h ref'.w (by omega) (by omega) (fun k l => (dHatN ref' new').px k l / _)
      (fun k l => (dHatN ref new).px k l / csqrt (normHat ref new s k l)) (fun k hk l hl => by
        rw [restamped_dHatN ref ref' new new' h w hr a b c e Rr Rn k l (by omega) (by omega),
          restamped_normHat ref ref' new new' h w hr hn a b c e Rr Rn s k l (by omega) (by omega)]),
    ifftOrtho_mk_congr ref.h ref.w ref'.h ref'.w (by omega) (by omega) (fun k l => (dHatR ref' new').px k l / _)
      (fun k l => (dHatR ref new).px k l / csqrt (normHat ref new s k l)) (fun k hk l hl => by
        rw [restamped_dHatR ref ref' new new' h w hn a b c e Rr Rn k l (by omega) (by omega),
          restamped_normHat ref ref' new new' h w hr hn a b c e Rr Rn s k l (by omega) (by omega)]),
    d3, d4, d1, d2]

end

/-- The fit sees the images through its two costs, the mask and the shape only. -/
theorem scaleShift_costs (opt : Opt) (o : SubOpts) (gamma gamma' : Img ℝ) (m m' : NMask) (ref new ref' new' : SubImg) (z1 z2 : ℝ)
    (h1 : scaleCost gamma' m' ref' new' = scaleCost gamma m ref new)
    (h2 : ∀ s dx dy, borderCost m' (shiftResidual gamma' ref' new' s dx dy) =
      borderCost m (shiftResidual gamma ref new s dx dy))
    (h3 : imageSeen m' ref'.h ref'.w = imageSeen m ref.h ref.w) (h4 : windowSeen m' ref'.h ref'.w = windowSeen m ref.h ref.w) :
    scaleShift opt o gamma' m' ref' new' z1 z2 = scaleShift opt o gamma m ref new z1 z2 := by
  have c1 : costScaleShift gamma' m' ref' new' = costScaleShift gamma m ref new := by
    funext x
    unfold costScaleShift
    split
    · exact h2 _ _ _
    · rfl
  have c2 : costScale gamma' m' ref' new' = costScale gamma m ref new := by
    funext x
    unfold costScale
    split
    · rw [h1]
    · rfl
  have c3 : costShift gamma' m' ref' new' = costShift gamma m ref new := by
    funext s x
    unfold costShift
    split
    · exact h2 _ _ _
    · rfl
  unfold scaleShift
  rw [c1, c2, c3, h1, h3, h4]

/-- What `subtract` returns for a given scale and shift. -/
noncomputable def outShift (env : SubEnv) (ref new : SubImg) (z2 s dx dy : ℝ) (m : NMask) : SubOut :=
  ⟨ifftOrtho (dHat ref new s dx dy), subP ref new s, (sCorr env.peak ref new z2 s dx dy).map re, m⟩

/-- Two calls that see the same photometry and the same costs both raise the same error, or both return for the same scale
and shift. -/
theorem subtract_pair_all (env : SubEnv) (o : SubOpts) (ref new ref' new' : SubImg)
    (hs : new'.interped.shape ≠ ref'.interped.shape ↔ new.interped.shape ≠ ref.interped.shape)
    (hmr : ref'.mask = ref.mask) (hmn : new'.mask = new.mask) (hh : ref'.h = ref.h) (hw : ref'.w = ref.w)
    (hc : (env.fitted = false ∧ ((centerOfMass new'.psf).1 < 0 ∨ (centerOfMass new'.psf).2 < 0)) ↔
      (env.fitted = false ∧ ((centerOfMass new.psf).1 < 0 ∨ (centerOfMass new.psf).2 < 0)))
    (h1 : ∀ m, scaleCost env.gamma m ref' new' = scaleCost env.gamma m ref new)
    (h2 : ∀ m s dx dy, borderCost m (shiftResidual env.gamma ref' new' s dx dy) =
      borderCost m (shiftResidual env.gamma ref new s dx dy)) :
    (∃ er, subtract env o ref new = .error er ∧ subtract env o ref' new' = .error er) ∨
    ∃ m z1 z s dx dy, env.zps = .ok (z1, z) ∧ scaleShift env.opt o env.gamma m ref new z1 z = .ok (s, dx, dy) ∧
      subtract env o ref new = .ok (outShift env ref new z s dx dy m) ∧
      subtract env o ref' new' = .ok (outShift env ref' new' z s dx dy m) := by
  unfold subtract
  by_cases h : new.interped.shape ≠ ref.interped.shape
  · rw [if_pos h, if_pos (hs.2 h)]
    exact Or.inl ⟨_, rfl, rfl⟩
  rw [if_neg h, if_neg (fun q => h (hs.1 q)), hmr, hmn]
  rcases new.mask.maskOr ref.mask with er | m
  · exact Or.inl ⟨er, rfl, rfl⟩
  rcases hz : env.zps with er | z
  · exact Or.inl ⟨er, rfl, rfl⟩
  change (∃ er, (if env.fitted = false ∧ ((centerOfMass new.psf).1 < 0 ∨ (centerOfMass new.psf).2 < 0) then _
        else (scaleShift env.opt o env.gamma m ref new z.1 z.2 >>= _)) = Except.error er ∧
      (if env.fitted = false ∧ ((centerOfMass new'.psf).1 < 0 ∨ (centerOfMass new'.psf).2 < 0) then _ else
        (scaleShift env.opt o env.gamma m ref' new' z.1 z.2 >>= _)) = Except.error er) ∨
    ∃ m' z1 z' s dx dy, Except.ok z = Except.ok (z1, z') ∧ scaleShift env.opt o env.gamma m' ref new z1 z' = .ok (s, dx, dy) ∧
      (if env.fitted = false ∧ ((centerOfMass new.psf).1 < 0 ∨ (centerOfMass new.psf).2 < 0) then _
        else (scaleShift env.opt o env.gamma m ref new z.1 z.2 >>= _)) = _ ∧
      (if env.fitted = false ∧ ((centerOfMass new'.psf).1 < 0 ∨ (centerOfMass new'.psf).2 < 0) then _ else
        (scaleShift env.opt o env.gamma m ref' new' z.1 z.2 >>= _)) = _
  by_cases h3 : env.fitted = false ∧ ((centerOfMass new.psf).1 < 0 ∨ (centerOfMass new.psf).2 < 0)
  · rw [if_pos h3, if_pos (hc.2 h3)]
    exact Or.inl ⟨_, rfl, rfl⟩
  rw [if_neg h3, if_neg (fun q => h3 (hc.1 q)),
    scaleShift_costs env.opt o env.gamma env.gamma m m ref new ref' new' z.1 z.2 (h1 m) (h2 m) (by rw [hh, hw]) (by rw [hh, hw])]
  rcases hq : scaleShift env.opt o env.gamma m ref new z.1 z.2 with er | ⟨s, dx, dy⟩
  · exact Or.inl ⟨er, rfl, rfl⟩
  · exact Or.inr ⟨m, z.1, z.2, s, dx, dy, rfl, hq, rfl, rfl⟩

theorem rolled_neg_phase (h w : ℕ) (a b : ℤ) (k l : ℕ) :
    (starRingEnd ℂ) (shiftPhase h w ((a : ℝ), (b : ℝ)) k l) = shiftPhase h w (((-a : ℤ) : ℝ), ((-b : ℤ) : ℝ)) k l := by
  unfold shiftPhase
  rw [map_mul, conj_tw, conj_tw]
  push_cast
  simp only [mul_neg]

/-- A noise map follows its kernel. -/
theorem subV_rolled_kernel (f : Img ℝ) (h w : ℕ) (h0 : h ≠ 0) (w0 : w ≠ 0) (hf : f.shape = (h, w))
    (s t : ℤ) (F F' : ℕ → ℕ → ℂ) (q : ∀ i < h, ∀ j < w, F' i j = ((Img.mk h w F).rolled s t).px i j) (i j : ℕ) (hi : i < h)
    (hj : j < w) : (subV f ⟨h, w, F'⟩).px i j = ((subV f ⟨h, w, F⟩).rolled s t).px i j := by
  have f1 : f.h = h := congrArg Prod.fst hf
  have f2 : f.w = w := congrArg Prod.snd hf
  have e1 : ∀ k l, (dft ((Img.mk h w F').map fun z => z ^ 2)).px k l =
      (dft ((Img.mk h w F).map fun z => z ^ 2)).px k l * shiftPhase h w ((s : ℝ), (t : ℝ)) k l := by
    intro k l
    refine Eq.trans ?_ (dft_rolled ((Img.mk h w F).map fun z => z ^ 2) s t h0 w0 k l)
    change ∑ x ∈ range h, ∑ y ∈ range w, F' x y ^ 2 * (tw h ((k : ℝ) * x) * tw w ((l : ℝ) * y)) =
      ∑ x ∈ range h, ∑ y ∈ range w, ((Img.mk h w F).rolled s t).px x y ^ 2 * (tw h ((k : ℝ) * x) * tw w ((l : ℝ) * y))
    refine Finset.sum_congr rfl fun x hx => Finset.sum_congr rfl fun y hy => ?_
    rw [q x (mem_range.1 hx) y (mem_range.1 hy)]
  unfold subV
  rw [← ifftOrtho_shift s t _ i j (by change i < f.h; omega) (by change j < f.w; omega)]
  refine congrArg (fun X : Img ℂ => X.px i j) (ifftOrtho_ext _ _ rfl rfl fun k _ l _ => ?_)
  change (fftOrtho _).px k l * (dft _).px k l = (fftOrtho _).px k l * (dft _).px k l * shiftPhase f.h f.w _ k l
  rw [e1, f1, f2, mul_assoc]

section
variable (ref ref' new new' : SubImg) (h w : ℕ) (hr : ref.interped.shape = (h, w)) (hn : new.interped.shape = (h, w))
    (a b c e : ℤ) (Rr : Restamped ref ref' a b) (Rn : Restamped new new' c e)

include hr hn Rr Rn in
theorem restamped_subKr (z s : ℝ) (i j : ℕ) (hi : i < h) (hj : j < w) :
    (subKr ref' new' z s).px i j = ((subKr ref new z s).rolled (-a) (-b)).px i j := by
  obtain ⟨d1, d2, d3, d4⟩ := restamped_dims ref ref' h w hr a b Rr
  unfold subKr
  rw [← ifftOrtho_shift (-a) (-b) _ i j (by change i < ref.h; omega) (by change j < ref.w; omega)]
  refine congrArg (fun X : Img ℂ => X.px i j) (ifftOrtho_ext _ _ (d3.trans d1.symm) (d4.trans d2.symm) fun k hk l hl => ?_)
  change k < ref'.h at hk
  change l < ref'.w at hl
  have hp := restamped_power h w c e new new' hn Rn k l (by omega) (by omega)
  change _ / normHat ref' new' s k l = _ / normHat ref new s k l * shiftPhase ref.h ref.w _ k l
  rw [restamped_normHat ref ref' new new' h w hr hn a b c e Rr Rn s k l (by omega) (by omega), mul_assoc _ (new'.psfHat.px k l), hp,
    Rr.hat k (by change k < ref.h; omega) l (by change l < ref.w; omega), map_mul, rolled_neg_phase]
  change _ = _ * shiftPhase ref.interped.h ref.interped.w _ k l
  ring

include hr hn Rr Rn in
theorem restamped_subKn (z s : ℝ) (i j : ℕ) (hi : i < h) (hj : j < w) :
    (subKn ref' new' z s).px i j = ((subKn ref new z s).rolled (-c) (-e)).px i j := by
  obtain ⟨d1, d2, d3, d4⟩ := restamped_dims ref ref' h w hr a b Rr
  obtain ⟨n1, n2, n3, n4⟩ := restamped_dims new new' h w hn c e Rn
  unfold subKn
  rw [← ifftOrtho_shift (-c) (-e) _ i j (by change i < ref.h; omega) (by change j < ref.w; omega)]
  refine congrArg (fun X : Img ℂ => X.px i j) (ifftOrtho_ext _ _ (d3.trans d1.symm) (d4.trans d2.symm) fun k hk l hl => ?_)
  change k < ref'.h at hk
  change l < ref'.w at hl
  have hp := restamped_power h w a b ref ref' hr Rr k l (by omega) (by omega)
  change _ / normHat ref' new' s k l = _ / normHat ref new s k l * shiftPhase ref.h ref.w _ k l
  rw [restamped_normHat ref ref' new new' h w hr hn a b c e Rr Rn s k l (by omega) (by omega), mul_assoc _ (ref'.psfHat.px k l), hp,
    Rn.hat k (by change k < new.h; omega) l (by change l < new.w; omega), map_mul, rolled_neg_phase, d1, d2]
  change _ * (_ * shiftPhase new.h new.w _ k l) * _ / _ = _
  rw [n1, n2]
  ring

/-- By how much the centre used for S falls short of following the stars. -/
noncomputable def centreLag (peak : Img ℝ → ℕ × ℕ) (P P' : Img ℝ) (a b : ℤ) : ℝ × ℝ :=
  ((subCenter peak P').1 - (subCenter peak P).1 - a, (subCenter peak P').2 - (subCenter peak P).2 - b)

include hr hn Rr Rn in
/-- The numerator of S moves by what the centre misses. -/
theorem restamped_sHat (peak : Img ℝ → ℕ × ℕ) (s dx dy : ℝ) (k l : ℕ) (hk : k < h) (hl : l < w) :
    (sHat peak ref' new' s dx dy).px k l = (sHat peak ref new s dx dy).px k l *
      shiftPhase h w (centreLag peak (subP ref new s) (subP ref' new' s) (a + c) (b + e)) k l := by
  obtain ⟨d1, d2, d3, d4⟩ := restamped_dims ref ref' h w hr a b Rr
  change ((dZp ref' new' s : ℂ) * (dHat ref' new' s dx dy).px k l * (starRingEnd ℂ) ((pHat ref' new' s).px k l)) *
      shiftPhase ref'.h ref'.w (subCenter peak (subP ref' new' s)) k l =
    ((dZp ref new s : ℂ) * (dHat ref new s dx dy).px k l * (starRingEnd ℂ) ((pHat ref new s).px k l)) *
      shiftPhase ref.h ref.w (subCenter peak (subP ref new s)) k l * _
  rw [restamped_dHat ref ref' new new' h w hr hn a b c e Rr Rn s dx dy k l hk hl,
    restamped_pHat ref ref' new new' h w hr hn a b c e Rr Rn s k l hk hl, restamped_dZp ref ref' new new' a b c e Rr Rn, d1, d2, d3,
    d4, map_mul, rolled_neg_phase]
  unfold centreLag
  generalize subCenter peak (subP ref' new' s) = q'
  generalize subCenter peak (subP ref new s) = q
  have u : shiftPhase h w (((-(a + c) : ℤ) : ℝ), ((-(b + e) : ℤ) : ℝ)) k l * shiftPhase h w q' k l =
      shiftPhase h w q k l * shiftPhase h w (q'.1 - q.1 - ((a + c : ℤ) : ℝ), q'.2 - q.2 - ((b + e : ℤ) : ℝ)) k l := by
    rw [← shiftPhase_add, ← shiftPhase_add]
    congr 1
    refine Prod.ext ?_ ?_
    · push_cast
      ring
    · push_cast
      ring
  linear_combination ((dZp ref new s : ℂ) * (dHat ref new s dx dy).px k l * (starRingEnd ℂ) ((pHat ref new s).px k l)) * u

/-- The numerator of S and the two noise maps of its denominator. -/
noncomputable def scoreNum (env : SubEnv) (ref new : SubImg) (s dx dy : ℝ) : Img ℂ := ifftOrtho (sHat env.peak ref new s dx dy)
noncomputable def noiseNew (ref new : SubImg) (z s : ℝ) : Img ℂ := subV new.filled (subKn ref new z s)
noncomputable def noiseRef (ref new : SubImg) (z s : ℝ) : Img ℂ := subV ref.filled (subKr ref new z s)

theorem outShift_S (env : SubEnv) (ref new : SubImg) (z s dx dy : ℝ) (m : NMask) (i j : ℕ) :
    (outShift env ref new z s dx dy m).S.px i j =
      ((scoreNum env ref new s dx dy).px i j / csqrt ((noiseNew ref new z s).px i j + (noiseRef ref new z s).px i j)).re := rfl

theorem subKn_mk (ref new : SubImg) (z s : ℝ) (h w : ℕ) (d1 : ref.h = h) (d2 : ref.w = w) :
    subKn ref new z s = ⟨h, w, (subKn ref new z s).px⟩ := by
  subst d1 d2
  rfl

theorem subKr_mk (ref new : SubImg) (z s : ℝ) (h w : ℕ) (d1 : ref.h = h) (d2 : ref.w = w) :
    subKr ref new z s = ⟨h, w, (subKr ref new z s).px⟩ := by
  subst d1 d2
  rfl

include hr hn Rr Rn in
theorem restamped_noise (hfr : ref.filled.shape = (h, w)) (hfn : new.filled.shape = (h, w)) (z s : ℝ) (i j : ℕ) (hi : i < h)
    (hj : j < w) :
    (noiseNew ref' new' z s).px i j = ((noiseNew ref new z s).rolled (-c) (-e)).px i j ∧
    (noiseRef ref' new' z s).px i j = ((noiseRef ref new z s).rolled (-a) (-b)).px i j := by
  obtain ⟨d1, d2, d3, d4⟩ := restamped_dims ref ref' h w hr a b Rr
  unfold noiseNew noiseRef
  rw [subKn_mk ref' new' z s h w d3 d4, subKn_mk ref new z s h w d1 d2, subKr_mk ref' new' z s h w d3 d4,
    subKr_mk ref new z s h w d1 d2, Rr.filled, Rn.filled]
  refine ⟨subV_rolled_kernel new.filled h w (by omega) (by omega) hfn (-c) (-e) _ _ (fun x hx y hy => ?_) i j hi hj,
    subV_rolled_kernel ref.filled h w (by omega) (by omega) hfr (-a) (-b) _ _ (fun x hx y hy => ?_) i j hi hj⟩
  · rw [restamped_subKn ref ref' new new' h w hr hn a b c e Rr Rn z s x y hx hy, ← subKn_mk ref new z s h w d1 d2]
  · rw [restamped_subKr ref ref' new new' h w hr hn a b c e Rr Rn z s x y hx hy, ← subKr_mk ref new z s h w d1 d2]

include hr hn Rr Rn in
/-- **C131 (subtract).** Let the stars of the two PSF stamps sit elsewhere, by `(a, b)` and `(c, e)`. For all switches the two
calls raise the same error, or fit the same scale and shift and return the same D and mask; P is moved by the sum of the
displacements. In S the numerator is moved by what the centre of P misses of that sum, but the two noise maps are moved, each
by the displacement of its own stamp, and are not moved back. -/
theorem subtract_restamped (env : SubEnv) (o : SubOpts) (hfr : ref.filled.shape = (h, w)) (hfn : new.filled.shape = (h, w))
    (hc : env.fitted = true ∨ (0 ≤ (centerOfMass new.psf).1 ∧ 0 ≤ (centerOfMass new.psf).2 ∧
      0 ≤ (centerOfMass new'.psf).1 ∧ 0 ≤ (centerOfMass new'.psf).2)) :
    (∃ er, subtract env o ref new = .error er ∧ subtract env o ref' new' = .error er) ∨
    ∃ m z1 z s dx dy out out', env.zps = .ok (z1, z) ∧ scaleShift env.opt o env.gamma m ref new z1 z = .ok (s, dx, dy) ∧
      subtract env o ref new = .ok out ∧ subtract env o ref' new' = .ok out' ∧
      out.mask = m ∧ out'.mask = m ∧ out'.D = out.D ∧ out'.P.Same (out.P.rolled (a + c) (b + e)) ∧
      ∀ i < h, ∀ j < w,
        out.S.px i j = ((scoreNum env ref new s dx dy).px i j /
          csqrt ((noiseNew ref new z s).px i j + (noiseRef ref new z s).px i j)).re ∧
        out'.S.px i j = ((ifftOrtho (fourierShift (sHat env.peak ref new s dx dy)
              (centreLag env.peak out.P out'.P (a + c) (b + e)))).px i j /
          csqrt (((noiseNew ref new z s).rolled (-c) (-e)).px i j + ((noiseRef ref new z s).rolled (-a) (-b)).px i j)).re := by
  obtain ⟨d1, d2, d3, d4⟩ := restamped_dims ref ref' h w hr a b Rr
  have hcc : ∀ n : SubImg, (env.fitted = true ∨ (0 ≤ (centerOfMass n.psf).1 ∧ 0 ≤ (centerOfMass n.psf).2)) →
      ¬ (env.fitted = false ∧ ((centerOfMass n.psf).1 < 0 ∨ (centerOfMass n.psf).2 < 0)) := by
    rintro n (q | ⟨q1, q2⟩) ⟨u, v⟩
    · rw [q] at u
      cases u
    · rcases v with v | v
      · exact absurd v (not_lt.2 q1)
      · exact absurd v (not_lt.2 q2)
  rcases subtract_pair_all env o ref new ref' new' (by rw [Rr.interped, Rn.interped]) Rr.mask Rn.mask (congrArg Img.h Rr.interped) (congrArg Img.w Rr.interped)
    (iff_of_false (hcc new' (hc.imp id fun q => q.2.2)) (hcc new (hc.imp id fun q => ⟨q.1, q.2.1⟩)))
    (fun m => restamped_scaleCost ref ref' new new' h w hr hn a b c e Rr Rn env.gamma m)
    (fun m s dx dy => by rw [restamped_shiftResidual ref ref' new new' h w hr hn a b c e Rr Rn env.gamma s dx dy]) with q | q
  · exact Or.inl q
  · obtain ⟨m, z1, z, s, dx, dy, q3, q4, q1, q2⟩ := q
    refine Or.inr ⟨m, z1, z, s, dx, dy, _, _, q3, q4, q1, q2, rfl, rfl, restamped_D ref ref' new new' h w hr hn a b c e Rr Rn s dx dy,
      restamped_subP ref ref' new new' h w hr hn a b c e Rr Rn s, fun i hi j hj => ⟨rfl, ?_⟩⟩
    obtain ⟨n1, n2⟩ := restamped_noise ref ref' new new' h w hr hn a b c e Rr Rn hfr hfn z s i j hi hj
    rw [outShift_S, n1, n2]
    unfold scoreNum
    rw [ifftOrtho_ext (sHat env.peak ref' new' s dx dy) (fourierShift (sHat env.peak ref new s dx dy)
      (centreLag env.peak (subP ref new s) (subP ref' new' s) (a + c) (b + e))) (d3.trans d1.symm) (d4.trans d2.symm)
      (fun k hk l hl => by
        change k < ref'.h at hk
        change l < ref'.w at hl
        rw [restamped_sHat ref ref' new new' h w hr hn a b c e Rr Rn env.peak s dx dy k l (by omega) (by omega)]
        change _ = _ * shiftPhase ref.h ref.w _ k l
        rw [d1, d2])]
    rfl

end

/-! ## coadd -/

/-- Two image objects of constant PSF that differ only by the place of the star in the stamp. -/
theorem toCoImg_framed (d : SinglePsf) (p : Img ℝ) (hp : d.psf = toC p) (hc : d.com = centerOfMass p) (H W a b : ℕ)
    (hH : a + p.h ≤ H) (hW : b + p.w ≤ W) (hh : H ≤ d.interped.h) (hw : W ≤ d.interped.w) (h0 : rsum p ≠ 0) :
    SinglePsf.toCoImg { d with psf := toC (p.framed H W a b), com := centerOfMass (p.framed H W a b) } = d.toCoImg := by
  have hp0 : p.h ≠ 0 ∧ p.w ≠ 0 := by
    refine ⟨fun q => h0 ?_, fun q => h0 ?_⟩
    · unfold rsum
      rw [q, range_zero, sum_empty]
    · unfold rsum
      rw [q]
      simp
  have e := fft_framed p H W a b d.interped.h d.interped.w hH hW hh hw (by omega) (by omega)
  obtain ⟨x, y, com, zp, var, mask⟩ := d
  simp only at hp hc hh hw e
  subst hp hc
  unfold SinglePsf.toCoImg
  congr 1
  · funext k l
    change ((zp / var ^ 2 : ℝ) : ℂ) * ((fftOrtho x).px k l * (starRingEnd ℂ) ((fftOrtho (padTo x.h x.w (toC (p.framed H W a b)))).px k l) *
        shiftPhase x.h x.w (centerOfMass (p.framed H W a b)) k l) =
      ((zp / var ^ 2 : ℝ) : ℂ) * ((fftOrtho x).px k l * (starRingEnd ℂ) ((fftOrtho (padTo x.h x.w (toC p))).px k l) *
        shiftPhase x.h x.w (centerOfMass p) k l)
    rw [e, map_mul, centerOfMass_framed p H W a b hH hW h0]
    have u := shiftPhase_conj_mul x.h x.w (((a : ℤ) : ℝ), ((b : ℤ) : ℝ)) k l
    have v := shiftPhase_add x.h x.w (centerOfMass p) ((a : ℝ), (b : ℝ)) k l
    simp only at v
    rw [v]
    simp only [Int.cast_natCast] at u ⊢
    linear_combination ((zp / var ^ 2 : ℝ) : ℂ) * (fftOrtho x).px k l * (starRingEnd ℂ) ((fftOrtho (padTo x.h x.w (toC p))).px k l) *
        shiftPhase x.h x.w (centerOfMass p) k l * u
  · funext k l
    change (fftOrtho (padTo x.h x.w (toC (p.framed H W a b)))).px k l *
        (starRingEnd ℂ) ((fftOrtho (padTo x.h x.w (toC (p.framed H W a b)))).px k l) =
      (fftOrtho (padTo x.h x.w (toC p))).px k l * (starRingEnd ℂ) ((fftOrtho (padTo x.h x.w (toC p))).px k l)
    rw [e, map_mul]
    have u := shiftPhase_conj_mul x.h x.w (((a : ℤ) : ℝ), ((b : ℤ) : ℝ)) k l
    linear_combination (fftOrtho (padTo x.h x.w (toC p))).px k l *
      (starRingEnd ℂ) ((fftOrtho (padTo x.h x.w (toC p))).px k l) * u

/-- **C131 (coadd).** R, the PSF of the coadd and its mask do not depend on where the stars sit in the stamps, each of which may
be framed differently. -/
theorem coadd_framed {n : ℕ} (lt : List CoImg → List CoImg → Option Bool) (d : Fin n → SinglePsf) (p : Fin n → Img ℝ) (H W a b : Fin n → ℕ)
    (hp : ∀ m, (d m).psf = toC (p m)) (hc : ∀ m, (d m).com = centerOfMass (p m))
    (hH : ∀ m, a m + (p m).h ≤ H m) (hW : ∀ m, b m + (p m).w ≤ W m) (hh : ∀ m, H m ≤ (d m).interped.h)
    (hw : ∀ m, W m ≤ (d m).interped.w) (h0 : ∀ m, rsum (p m) ≠ 0) (psfShape : ℕ) (procs : ℤ) :
    coaddCore lt ((List.ofFn fun m => { (d m) with psf := toC ((p m).framed (H m) (W m) (a m) (b m)), com := centerOfMass ((p m).framed (H m) (W m) (a m) (b m)) }).map SinglePsf.toCoImg) psfShape procs =
      coaddCore lt ((List.ofFn d).map SinglePsf.toCoImg) psfShape procs := by
  congr 1
  rw [List.map_ofFn, List.map_ofFn]
  congr 1
  funext m
  exact toCoImg_framed (d m) (p m) (hp m) (hc m) (H m) (W m) (a m) (b m) (hH m) (hW m) (hh m) (hw m) (h0 m)

/-! ## Worked instance -/

/-- A 1×3 image with unit noise whose PSF is one pixel, in a stamp of one pixel. -/
noncomputable def pointSub (u : ℕ → ℝ) : SubImg := { dotSub u with psf := ⟨1, 1, fun _ _ => 1⟩ }

theorem point_padded (k l : ℕ) (hk : k < 1) :
    (fftOrtho (padTo 1 3 (toC ⟨1, 1, fun _ _ => 1⟩))).px k l = 1 / (Real.sqrt 3 : ℂ) := by
  have d := dot_hat 0 (by norm_num) k l hk
  rw [Nat.cast_zero, mul_zero, tw_zero] at d
  rw [show ((1 * 3 : ℕ) : ℝ) = 3 by norm_num] at d
  rw [← d]
  refine fftOrtho_px_congr (padTo 1 3 (toC ⟨1, 1, fun _ _ => 1⟩)) (⟨1, 3, fun _ j => if j = 0 then 1 else 0⟩ : Img ℂ) rfl rfl
    (fun i hi j hj => ?_) k l
  change (if i < 1 ∧ j < 1 then (((1 : ℝ)) : ℂ) else 0) = if j = 0 then 1 else 0
  change i < 1 at hi
  by_cases h : j = 0
  · rw [if_pos (by omega), if_pos h]
    simp
  · rw [if_neg (by omega), if_neg h]

theorem point_idle : GuardIdle 1 3 ⟨1, 1, fun _ _ => 1⟩ := by
  intro k hk l hl
  rw [point_padded k l hk, ← Complex.ofReal_one, ← Complex.ofReal_div, Complex.ofReal_re]
  positivity

theorem point_psfHat (u : ℕ → ℝ) (k l : ℕ) (hk : k < 1) (hl : l < 3) : (pointSub u).psfHat.px k l = 1 / (Real.sqrt 3 : ℂ) := by
  rw [psfHat_idle (pointSub u) 1 3 rfl rfl point_idle k l hk hl]
  exact point_padded k l hk

/-- The stamp of three pixels displaces the star by one column. -/
theorem point_restamped (u : ℕ → ℝ) : Restamped (pointSub u) (dotSub u) 0 1 where
  interped := rfl
  mask := rfl
  filled := rfl
  var := rfl
  hat k hk l hl := by
    change k < 1 at hk
    change l < 3 at hl
    change _ = _ * shiftPhase 1 3 _ k l
    have hk0 : k = 0 := by omega
    rw [dot_psfHat u k l hk hl, point_psfHat u k l hk hl, shiftPhase_int 1 3 (by norm_num) (by norm_num), hk0]
    norm_num [tw_zero]
    ring
  com := by
    have e : centerOfMass (pointSub u).psf = (0, 0) := by
      change centerOfMass ⟨1, 1, fun _ _ => 1⟩ = _
      unfold centerOfMass rsum
      simp
    rw [e]
    exact (dot_com 1 (by norm_num)).trans (by norm_num)

theorem point_normHat (u v : ℕ → ℝ) (k l : ℕ) (hk : k < 1) (hl : l < 3) :
    normHat (pointSub u) (pointSub v) (1 / 1) k l = ((2 / 3 : ℝ) : ℂ) := by
  have q : (Real.sqrt 3 : ℂ) * (Real.sqrt 3 : ℂ) = 3 := by
    rw [← Complex.ofReal_mul, Real.mul_self_sqrt (by norm_num)]
    norm_num
  unfold normHat
  rw [point_psfHat u k l hk hl, point_psfHat v k l hk hl, map_div₀, Complex.conj_ofReal, map_one]
  change ((1 : ℝ) : ℂ) ^ 2 * _ * _ + ((1 : ℝ) : ℂ) ^ 2 * _ * _ * _ = _
  have q2 : 1 / (Real.sqrt 3 : ℂ) * (1 / (Real.sqrt 3 : ℂ)) = 1 / 3 := by
    rw [div_mul_div_comm, q, one_mul]
  push_cast
  linear_combination 2 * q2

theorem point_norm (u v : ℕ → ℝ) (k l : ℕ) (hk : k < 1) (hl : l < 3) :
    csqrt (normHat (pointSub u) (pointSub v) (1 / 1) k l) = (Real.sqrt 2 : ℂ) / (Real.sqrt 3 : ℂ) := by
  rw [point_normHat u v k l hk hl, csqrt_ofReal_nonneg _ (by norm_num), Real.sqrt_div (by norm_num)]
  push_cast
  rfl

theorem point_dZp (u v : ℕ → ℝ) : dZp (pointSub u) (pointSub v) (1 / 1) = 1 / Real.sqrt 2 := by
  unfold dZp
  change _ / Real.sqrt ((1 : ℝ) ^ 2 * _ + (1 : ℝ) ^ 2) = _
  norm_num

theorem point_pHat (u v : ℕ → ℝ) (k l : ℕ) (hk : k < 1) (hl : l < 3) :
    (pHat (pointSub u) (pointSub v) (1 / 1)).px k l = 1 / (Real.sqrt 3 : ℂ) := by
  have p2 : (Real.sqrt 2 : ℂ) ≠ 0 := by exact_mod_cast (Real.sqrt_pos.2 (by norm_num : (0 : ℝ) < 2)).ne'
  have p3 : (Real.sqrt 3 : ℂ) ≠ 0 := by exact_mod_cast (Real.sqrt_pos.2 (by norm_num : (0 : ℝ) < 3)).ne'
  change ((pointSub u).psfHat.px k l * (pointSub v).psfHat.px k l * _) / (csqrt _ * _) = _
  rw [point_psfHat u k l hk hl, point_psfHat v k l hk hl, point_norm u v k l hk hl, point_dZp]
  push_cast
  field_simp

theorem point_P (u v : ℕ → ℝ) (i j : ℕ) (hi : i < 1) (hj : j < 3) :
    (subP (pointSub u) (pointSub v) (1 / 1)).px i j = if j = 0 then 1 else 0 := by
  have e : (ifftOrtho (pHat (pointSub u) (pointSub v) (1 / 1))).px i j = if j = 0 then 1 else 0 := by
    rw [← dot_back 0 (by norm_num) i j hi hj]
    refine ifftOrtho_congr 1 3 _ _ (fun k hk l hl => ?_) i j
    rw [Nat.cast_zero, mul_zero, tw_zero, show ((1 * 3 : ℕ) : ℝ) = 3 by norm_num]
    exact point_pHat u v k l hk hl
  change ((ifftOrtho (pHat (pointSub u) (pointSub v) (1 / 1))).px i j).re = _
  rw [e]
  split_ifs <;> simp

theorem com_of_dot (P : Img ℝ) (h1 : P.h = 1) (h3 : P.w = 3) (m : ℕ) (hm : m < 3)
    (e : ∀ i < 1, ∀ j < 3, P.px i j = if j = m then 1 else 0) (peak : Img ℝ → ℕ × ℕ) (hp : peak P = (0, 0)) :
    subCenter peak P = (0, (m : ℝ)) := by
  have c : centerOfMass P = (((0 : ℤ) : ℝ), ((m : ℤ) : ℝ)) := by
    rw [← dot_com m hm]
    unfold centerOfMass rsum
    simp only [h1, h3]
    have e' : ∀ j < 3, P.px 0 j = if j = m then 1 else 0 := e 0 (by norm_num)
    simp only [Finset.sum_range_succ, Finset.sum_range_zero, e' 0 (by norm_num), e' 1 (by norm_num), e' 2 (by norm_num)]
  unfold subCenter
  rw [c, hp]
  have hm' : (m : ℝ) < 3 := by exact_mod_cast hm
  have hm0 : (0 : ℝ) ≤ m := Nat.cast_nonneg m
  rw [if_neg]
  · norm_num
  · norm_num
    omega

theorem fft_sub (h w : ℕ) (f g : ℕ → ℕ → ℂ) (k l : ℕ) :
    (fftOrtho ⟨h, w, fun i j => f i j - g i j⟩).px k l = (fftOrtho ⟨h, w, f⟩).px k l - (fftOrtho ⟨h, w, g⟩).px k l := by
  change (∑ i ∈ range h, ∑ j ∈ range w, (f i j - g i j) * (tw h ((k : ℝ) * i) * tw w ((l : ℝ) * j))) /
      (Real.sqrt ((h * w : ℕ) : ℝ) : ℂ) =
    (∑ i ∈ range h, ∑ j ∈ range w, f i j * (tw h ((k : ℝ) * i) * tw w ((l : ℝ) * j))) / (Real.sqrt ((h * w : ℕ) : ℝ) : ℂ) -
      (∑ i ∈ range h, ∑ j ∈ range w, g i j * (tw h ((k : ℝ) * i) * tw w ((l : ℝ) * j))) / (Real.sqrt ((h * w : ℕ) : ℝ) : ℂ)
  rw [← sub_div, ← Finset.sum_sub_distrib]
  simp only [← Finset.sum_sub_distrib, ← sub_mul]

theorem dHatN_px (ref new : SubImg) (k l : ℕ) : (dHatN ref new).px k l =
    ref.psfHat.px k l * new.interpedHat.px k l * shiftPhase ref.h ref.w (negPair (centerOfMass ref.psf)) k l := rfl

theorem dHatR_px (ref new : SubImg) (k l : ℕ) : (dHatR ref new).px k l =
    new.psfHat.px k l * ref.interpedHat.px k l * shiftPhase new.h new.w (negPair (centerOfMass new.psf)) k l := rfl

theorem sHat_px (peak : Img ℝ → ℕ × ℕ) (ref new : SubImg) (b dx dy : ℝ) (k l : ℕ) : (sHat peak ref new b dx dy).px k l =
    ((dZp ref new b : ℂ) * (dHat ref new b dx dy).px k l * (starRingEnd ℂ) ((pHat ref new b).px k l)) *
      shiftPhase ref.h ref.w (subCenter peak (subP ref new b)) k l := rfl

theorem point_com (u : ℕ → ℝ) : negPair (centerOfMass (pointSub u).psf) = (0, 0) := by
  change negPair (centerOfMass ⟨1, 1, fun _ _ => 1⟩) = _
  unfold centerOfMass rsum negPair
  simp

theorem point_dHat (u v : ℕ → ℝ) (k l : ℕ) (hk : k < 1) (hl : l < 3) :
    (dHat (pointSub u) (pointSub v) (1 / 1) 0 0).px k l =
      ((pointSub v).interpedHat.px k l - (pointSub u).interpedHat.px k l) / (Real.sqrt 2 : ℂ) := by
  have p3 : (Real.sqrt 3 : ℂ) ≠ 0 := by exact_mod_cast (Real.sqrt_pos.2 (by norm_num : (0 : ℝ) < 3)).ne'
  rw [dHat_px (pointSub u) (pointSub v) rfl rfl]
  simp only []
  rw [point_norm u v k l hk hl, dHatN_px, dHatR_px, point_com, point_com, shiftPhase_no_shift, shiftPhase_no_shift,
    point_psfHat u k l hk hl, point_psfHat v k l hk hl]
  generalize (pointSub v).interpedHat.px k l = A
  generalize (pointSub u).interpedHat.px k l = B
  generalize (Real.sqrt 3 : ℂ) = r3 at *
  push_cast
  field_simp
  ring

theorem point_sHat (u v : ℕ → ℝ) (k l : ℕ) (hk : k < 1) (hl : l < 3) :
    (sHat (tinyEnv 1 1).peak (pointSub u) (pointSub v) (1 / 1) 0 0).px k l = ((1 / (2 * Real.sqrt 3) : ℝ) : ℂ) *
      ((pointSub v).interpedHat.px k l - (pointSub u).interpedHat.px k l) := by
  have p2 : (Real.sqrt 2 : ℂ) ≠ 0 := by exact_mod_cast (Real.sqrt_pos.2 (by norm_num : (0 : ℝ) < 2)).ne'
  have p3 : (Real.sqrt 3 : ℂ) ≠ 0 := by exact_mod_cast (Real.sqrt_pos.2 (by norm_num : (0 : ℝ) < 3)).ne'
  have q2 : (Real.sqrt 2 : ℂ) * (Real.sqrt 2 : ℂ) = 2 := by
    rw [← Complex.ofReal_mul, Real.mul_self_sqrt (by norm_num)]
    norm_num
  have hc : subCenter (tinyEnv 1 1).peak (subP (pointSub u) (pointSub v) (1 / 1)) = (0, 0) := by
    have := com_of_dot (subP (pointSub u) (pointSub v) (1 / 1)) rfl rfl 0 (by norm_num) (fun i hi j hj => point_P u v i j hi hj)
      (tinyEnv 1 1).peak rfl
    simpa using this
  rw [sHat_px, hc, shiftPhase_no_shift, point_pHat u v k l hk hl, point_dZp, point_dHat u v k l hk hl, map_div₀, map_one,
    Complex.conj_ofReal]
  generalize (pointSub v).interpedHat.px k l = A
  generalize (pointSub u).interpedHat.px k l = B
  push_cast
  generalize (Real.sqrt 3 : ℂ) = r3 at *
  generalize (Real.sqrt 2 : ℂ) = r2 at *
  field_simp
  linear_combination (B - A) * q2

theorem point_num (u v : ℕ → ℝ) (j : ℕ) (hj : j < 3) :
    (scoreNum (tinyEnv 1 1) (pointSub u) (pointSub v) (1 / 1) 0 0).px 0 j = ((1 / (2 * Real.sqrt 3) * (v j - u j) : ℝ) : ℂ) := by
  have lin : ∀ k l, (fftOrtho ⟨1, 3, fun _ j => ((v j : ℝ) : ℂ) - ((u j : ℝ) : ℂ)⟩).px k l =
      (pointSub v).interpedHat.px k l - (pointSub u).interpedHat.px k l := fft_sub 1 3 _ _
  unfold scoreNum
  rw [ifftOrtho_ext (sHat (tinyEnv 1 1).peak (pointSub u) (pointSub v) (1 / 1) 0 0) (⟨1, 3, fun k l => ((1 / (2 * Real.sqrt 3) : ℝ) : ℂ) *
      (fftOrtho ⟨1, 3, fun _ j => ((v j : ℝ) : ℂ) - ((u j : ℝ) : ℂ)⟩).px k l⟩) rfl rfl
    (fun k hk l hl => by rw [point_sHat u v k l hk hl]; exact congrArg _ (lin k l).symm), ifftOrtho_const_mul]
  have e := ifftOrtho_fftOrtho (⟨1, 3, fun _ j => ((v j : ℝ) : ℂ) - ((u j : ℝ) : ℂ)⟩ : Img ℂ) 0 j (show 0 < 1 by norm_num) hj
  change _ * (ifftOrtho (fftOrtho (⟨1, 3, fun _ j => ((v j : ℝ) : ℂ) - ((u j : ℝ) : ℂ)⟩ : Img ℂ))).px 0 j = _
  rw [e, Complex.ofReal_mul, Complex.ofReal_sub]

theorem point_kernel (u v : ℕ → ℝ) (i j : ℕ) (hi : i < 1) (hj : j < 3) :
    (subKn (pointSub u) (pointSub v) 1 (1 / 1)).px i j = ((1 / 2 : ℝ) : ℂ) * (if j = 0 then 1 else 0) ∧
    (subKr (pointSub u) (pointSub v) 1 (1 / 1)).px i j = ((1 / 2 : ℝ) : ℂ) * (if j = 0 then 1 else 0) := by
  have p3 : (Real.sqrt 3 : ℂ) ≠ 0 := by exact_mod_cast (Real.sqrt_pos.2 (by norm_num : (0 : ℝ) < 3)).ne'
  have q : (Real.sqrt 3 : ℂ) * (Real.sqrt 3 : ℂ) = 3 := by
    rw [← Complex.ofReal_mul, Real.mul_self_sqrt (by norm_num)]
    norm_num
  have t : ∀ l : ℕ, tw 3 ((l : ℝ) * (0 : ℕ)) / (Real.sqrt ((1 * 3 : ℕ) : ℝ) : ℂ) = 1 / (Real.sqrt 3 : ℂ) := by
    intro l
    rw [Nat.cast_zero, mul_zero, tw_zero, show ((1 * 3 : ℕ) : ℝ) = 3 by norm_num]
  rw [← dot_back 0 (by norm_num) i j hi hj, ← ifftOrtho_const_mul]
  constructor
  · refine ifftOrtho_congr 1 3 _ _ (fun k hk l hl => ?_) i j
    rw [t, point_psfHat u k l hk hl, point_psfHat v k l hk hl, point_normHat u v k l hk hl, map_div₀, map_one, Complex.conj_ofReal]
    generalize (Real.sqrt 3 : ℂ) = r3 at *
    push_cast
    field_simp
    linear_combination -q
  · refine ifftOrtho_congr 1 3 _ _ (fun k hk l hl => ?_) i j
    rw [t, point_psfHat u k l hk hl, point_psfHat v k l hk hl, point_normHat u v k l hk hl, map_div₀, map_one, Complex.conj_ofReal]
    generalize (Real.sqrt 3 : ℂ) = r3 at *
    push_cast
    field_simp
    linear_combination -q

theorem subV_point (f : ℕ → ℝ) (K : ℕ → ℕ → ℂ) (hK : ∀ i < 1, ∀ j < 3, K i j = ((1 / 2 : ℝ) : ℂ) * (if j = 0 then 1 else 0))
    (j : ℕ) (hj : j < 3) : (subV ⟨1, 3, fun _ j => f j⟩ ⟨1, 3, K⟩).px 0 j = (((f j + 1) / 4 : ℝ) : ℂ) := by
  have e : ∀ k l, (dft ((Img.mk 1 3 K).map fun z => z ^ 2)).px k l = 1 / 4 := by
    intro k l
    change ∑ x ∈ range 1, ∑ y ∈ range 3, K x y ^ 2 * (tw 1 ((k : ℝ) * x) * tw 3 ((l : ℝ) * y)) = _
    simp only [Finset.sum_range_succ, Finset.sum_range_zero, hK 0 (by norm_num) 0 (by norm_num), hK 0 (by norm_num) 1 (by norm_num),
      hK 0 (by norm_num) 2 (by norm_num)]
    norm_num [tw_zero]
  unfold subV
  rw [ifftOrtho_ext ((fftOrtho ((Img.mk 1 3 fun _ j => f j).map fun x => ((x + 1 : ℝ) : ℂ))).zip (· * ·)
    (dft ((Img.mk 1 3 K).map fun z => z ^ 2))) (⟨1, 3, fun k l => ((1 / 4 : ℝ) : ℂ) *
    (fftOrtho ((Img.mk 1 3 fun _ j => f j).map fun x => ((x + 1 : ℝ) : ℂ))).px k l⟩) rfl rfl (fun k _ l _ => by
      change (fftOrtho _).px k l * (dft _).px k l = _
      rw [e]
      push_cast
      ring), ifftOrtho_const_mul]
  have q := ifftOrtho_fftOrtho ((Img.mk 1 3 fun _ j => f j).map fun x => ((x + 1 : ℝ) : ℂ)) 0 j (show 0 < 1 by norm_num) hj
  change _ * (ifftOrtho (fftOrtho ((Img.mk 1 3 fun _ j => f j).map fun x => ((x + 1 : ℝ) : ℂ)))).px 0 j = _
  rw [q]
  change _ * ((f j + 1 : ℝ) : ℂ) = _
  push_cast
  ring

theorem point_noise (u v : ℕ → ℝ) (j : ℕ) (hj : j < 3) :
    (noiseNew (pointSub u) (pointSub v) 1 (1 / 1)).px 0 j = (((v j + 1) / 4 : ℝ) : ℂ) ∧
    (noiseRef (pointSub u) (pointSub v) 1 (1 / 1)).px 0 j = (((u j + 1) / 4 : ℝ) : ℂ) := by
  unfold noiseNew noiseRef
  rw [subKn_mk (pointSub u) (pointSub v) 1 (1 / 1) 1 3 rfl rfl, subKr_mk (pointSub u) (pointSub v) 1 (1 / 1) 1 3 rfl rfl]
  exact ⟨subV_point v _ (fun i hi j hj => (point_kernel u v i j hi hj).1) j hj,
    subV_point u _ (fun i hi j hj => (point_kernel u v i j hi hj).2) j hj⟩

/-- C131 for two 1×3 images whose PSF is one pixel: D is the same for a stamp of that pixel and for a stamp of three with the
pixel in the middle, but the score is divided by the noise of the pixel itself in the first case and by that of the next pixel
in the second. -/
theorem dot_score_moves (u v : ℕ → ℝ) (hu : ∀ j < 3, -1 ≤ u j) (hv : ∀ j < 3, -1 ≤ v j) :
    ∃ out out', subtract (tinyEnv 1 1) ⟨false, false, true⟩ (pointSub u) (pointSub v) = .ok out ∧
      subtract (tinyEnv 1 1) ⟨false, false, true⟩ (dotSub u) (dotSub v) = .ok out' ∧ out'.D = out.D ∧
      ∀ j < 3, out.S.px 0 j = (v j - u j) / (2 * Real.sqrt 3) / Real.sqrt ((v j + u j + 2) / 4) ∧
        out'.S.px 0 j = (v j - u j) / (2 * Real.sqrt 3) / Real.sqrt ((v ((j + 1) % 3) + u ((j + 1) % 3) + 2) / 4) := by
  have fin : ∀ x A B : ℝ, -1 ≤ A → -1 ≤ B →
      ((((1 / (2 * Real.sqrt 3) * x : ℝ) : ℂ)) / csqrt ((((A + 1) / 4 : ℝ) : ℂ) + (((B + 1) / 4 : ℝ) : ℂ))).re =
        x / (2 * Real.sqrt 3) / Real.sqrt ((A + B + 2) / 4) := by
    intro x A B hA hB
    rw [← Complex.ofReal_add, csqrt_ofReal_nonneg _ (by linarith), ← Complex.ofReal_div, Complex.ofReal_re]
    congr 1
    · ring
    · congr 1
      ring
  rcases subtract_restamped (pointSub u) (dotSub u) (pointSub v) (dotSub v) 1 3 rfl rfl 0 1 0 1 (point_restamped u)
    (point_restamped v) (tinyEnv 1 1) ⟨false, false, true⟩ rfl rfl (Or.inl rfl) with q | q
  · obtain ⟨er, q1, _⟩ := q
    obtain ⟨o, eo, _⟩ := subtract_returns (tinyEnv 1 1) true (pointSub u) (pointSub v) 1 3 rfl rfl
      (by intro a h; cases h) (by intro a h; cases h) (1, 1) rfl (Or.inl rfl)
    rw [eo] at q1
    cases q1
  · obtain ⟨m, z1, z, s, dx, dy, out, out', q1, q2, q3, q4, _, _, qD, qP, qS⟩ := q
    cases q1
    cases q2
    obtain ⟨o, eo, _, eP, _⟩ := subtract_returns (tinyEnv 1 1) true (pointSub u) (pointSub v) 1 3 rfl rfl
      (by intro a h; cases h) (by intro a h; cases h) (1, 1) rfl (Or.inl rfl)
    obtain ⟨o', eo', _, eP', _⟩ := subtract_returns (tinyEnv 1 1) true (dotSub u) (dotSub v) 1 3 rfl rfl
      (by intro a h; cases h) (by intro a h; cases h) (1, 1) rfl (Or.inl rfl)
    rw [q3] at eo
    cases eo
    rw [q4] at eo'
    cases eo'
    have lag : centreLag (tinyEnv 1 1).peak out.P out'.P (0 + 0) (1 + 1) = (0, 0) := by
      unfold centreLag
      rw [com_of_dot out.P (by rw [eP]; rfl) (by rw [eP]; rfl) 0 (by norm_num)
          (fun i hi j hj => by rw [eP]; exact point_P u v i j hi hj) (tinyEnv 1 1).peak rfl,
        com_of_dot out'.P (by rw [eP']; rfl) (by rw [eP']; rfl) 2 (by norm_num)
          (fun i hi j hj => by rw [eP']; exact dot_P u v i j hi hj) (tinyEnv 1 1).peak rfl]
      norm_num
    refine ⟨out, out', q3, q4, qD, fun j hj => ?_⟩
    obtain ⟨s1, s2⟩ := qS 0 (by norm_num) j hj
    have hj' : (j + 1) % 3 < 3 := Nat.mod_lt _ (by norm_num)
    constructor
    · rw [s1, point_num u v j hj, (point_noise u v j hj).1, (point_noise u v j hj).2]
      exact fin _ _ _ (hv j hj) (hu j hj)
    · rw [s2, lag]
      have id0 : ifftOrtho (fourierShift (sHat (tinyEnv 1 1).peak (pointSub u) (pointSub v) (1 / 1) 0 0) (0, 0)) =
          scoreNum (tinyEnv 1 1) (pointSub u) (pointSub v) (1 / 1) 0 0 := by
        refine ifftOrtho_ext _ _ rfl rfl fun k _ l _ => ?_
        change _ * shiftPhase 1 3 (0, 0) k l = _
        rw [shiftPhase_no_shift, mul_one]
      have bk : backBy 3 (-1) j = (j + 1) % 3 := by
        interval_cases j <;> rfl
      rw [id0, point_num u v j hj]
      change (_ / csqrt ((noiseNew (pointSub u) (pointSub v) 1 (1 / 1)).px 0 (backBy 3 (-1) j) +
        (noiseRef (pointSub u) (pointSub v) 1 (1 / 1)).px 0 (backBy 3 (-1) j))).re = _
      rw [bk, (point_noise u v _ hj').1, (point_noise u v _ hj').2]
      exact fin _ _ _ (hv _ hj') (hu _ hj')

end PI
