import Verif.Props.VarPsf

/-!
# Properties C109, C110: the normalisation image of a variable PSF, and the scale of the basis

Specification vocabulary: `mirrorAt`, a row or column index reflected at the two edges once;
`BalancePoint`, the centre of a PSF as a point about which its moments vanish.
-/

namespace PI
open Complex Finset

/-! ## C109 -/

/-- The index `z` reflected at the edge it has crossed (the edge pixel is repeated). -/
def mirrorAt (n : ℕ) (z : ℤ) : ℤ := if z < 0 then -1 - z else if z < n then z else 2 * n - 1 - z

theorem reflectZ_mirrorAt (n : ℕ) (z : ℤ) (h1 : -(n : ℤ) ≤ z) (h2 : z < 2 * n) :
    ((reflectZ n z : ℕ) : ℤ) = mirrorAt n z := by
  unfold reflectZ mirrorAt
  by_cases hz : z < 0
  · have e : z % ((2 * n : ℕ) : ℤ) = z + 2 * n := by
      rw [← Int.add_emod_right, Int.emod_eq_of_lt (by push_cast; omega) (by push_cast; omega)]
      push_cast; rfl
    rw [if_pos hz, e]
    simp only []
    split <;> omega
  · have e : z % ((2 * n : ℕ) : ℤ) = z := Int.emod_eq_of_lt (by omega) (by push_cast; omega)
    rw [if_neg hz, e]
    simp only []
    split <;> split <;> omega

/-- C109: the normalisation image has the shape of the image. -/
theorem varpsf_normal_shape (d : VarPsf) : d.normalImg.h = d.interped.h ∧ d.normalImg.w = d.interped.w := ⟨rfl, rfl⟩

/-- C109: each pixel of the normalisation image is the sum, over the basis, of the coefficient field
around the pixel weighted with the basis element turned by half a turn about its pixel `(h//2, w//2)`;
outside the image the field is continued by reflection at the edge. -/
theorem varpsf_normal_px (d : VarPsf) (hs : ∀ t ∈ d.terms, t.psf.h ≤ 2 * d.interped.h ∧ t.psf.w ≤ 2 * d.interped.w)
    (i j : ℕ) (hi : i < d.interped.h) (hj : j < d.interped.w) :
    d.normalImg.px i j = (d.terms.map fun t => ∑ a ∈ range t.psf.h, ∑ b ∈ range t.psf.w,
      t.psf.px a b * t.field (mirrorAt d.interped.h (i + (t.psf.h / 2 : ℕ) - a)).toNat
        (mirrorAt d.interped.w (j + (t.psf.w / 2 : ℕ) - b)).toNat).sum := by
  refine congrArg List.sum (List.map_congr_left fun t ht => ?_)
  obtain ⟨h1, h2⟩ := hs t ht
  change ∑ a ∈ range t.psf.h, ∑ b ∈ range t.psf.w, t.psf.px a b * t.field
    (reflectZ d.interped.h ((i : ℤ) + (t.psf.h / 2 : ℕ) - a))
    (reflectZ d.interped.w ((j : ℤ) + (t.psf.w / 2 : ℕ) - b)) = _
  refine Finset.sum_congr rfl fun a ha => Finset.sum_congr rfl fun b hb => ?_
  rw [mem_range] at ha hb
  rw [← reflectZ_mirrorAt d.interped.h _ (by omega) (by omega),
    ← reflectZ_mirrorAt d.interped.w _ (by omega) (by omega), Int.toNat_natCast, Int.toNat_natCast]

/-- The point about which the first moments of a PSF vanish. -/
def BalancePoint (p : Img ℝ) (c : ℝ × ℝ) : Prop :=
  (∑ a ∈ range p.h, ∑ b ∈ range p.w, ((a : ℝ) - c.1) * p.px a b = 0) ∧
    ∑ a ∈ range p.h, ∑ b ∈ range p.w, ((b : ℝ) - c.2) * p.px a b = 0

theorem balancePoint_iff (p : Img ℝ) (hT : psfTotal p ≠ 0) (c : ℝ × ℝ) :
    BalancePoint p c ↔ c = psfCentroid p := by
  have e : ∀ (f : ℕ → ℕ → ℝ) (x : ℝ), ∑ a ∈ range p.h, ∑ b ∈ range p.w, (f a b - x) * p.px a b =
      (∑ a ∈ range p.h, ∑ b ∈ range p.w, f a b * p.px a b) - x * psfTotal p := by
    intro f x
    simp only [sub_mul, Finset.sum_sub_distrib, ← Finset.mul_sum]
    rfl
  unfold BalancePoint
  rw [e (fun a _ => (a : ℝ)), e (fun _ b => (b : ℝ)), sub_eq_zero, sub_eq_zero]
  constructor
  · rintro ⟨h1, h2⟩
    refine Prod.ext ?_ ?_
    · exact (eq_div_iff hT).2 h1.symm
    · exact (eq_div_iff hT).2 h2.symm
  · intro h
    rw [h]
    exact ⟨((eq_div_iff hT).1 rfl).symm, ((eq_div_iff hT).1 rfl).symm⟩

/-- C109: where the basis elements do not reach over the edge, a coefficient field that varies linearly
enters the normalisation image with its value at the pixel moved by the offset of the element's centre
from its middle pixel, times the element's total. So an element centred on its middle pixel contributes
exactly total times field. -/
theorem varpsf_normal_linear (d : VarPsf) (t : PsfTerm) (hd : d.terms = [t]) (c : ℝ × ℝ)
    (hc : BalancePoint t.psf c) (α β γ : ℝ)
    (hf : ∀ i < d.interped.h, ∀ j < d.interped.w, t.field i j = α + β * i + γ * j) (i j : ℕ)
    (hi1 : t.psf.h ≤ i + t.psf.h / 2 + 1) (hi2 : i + t.psf.h / 2 < d.interped.h)
    (hj1 : t.psf.w ≤ j + t.psf.w / 2 + 1) (hj2 : j + t.psf.w / 2 < d.interped.w) :
    d.normalImg.px i j = psfTotal t.psf *
      (α + β * (i + (t.psf.h / 2 : ℕ) - c.1) + γ * (j + (t.psf.w / 2 : ℕ) - c.2)) := by
  rw [varpsf_normal_px d (by rw [hd]; intro t' ht'; rw [List.mem_singleton] at ht'; subst ht'; omega) i j
    (by omega) (by omega), hd, List.map_singleton, List.sum_singleton]
  have e : ∀ a ∈ range t.psf.h, ∀ b ∈ range t.psf.w,
      t.psf.px a b * t.field (mirrorAt d.interped.h (i + (t.psf.h / 2 : ℕ) - a)).toNat
        (mirrorAt d.interped.w (j + (t.psf.w / 2 : ℕ) - b)).toNat =
      (α + β * (i + (t.psf.h / 2 : ℕ) - c.1) + γ * (j + (t.psf.w / 2 : ℕ) - c.2)) * t.psf.px a b
        - β * (((a : ℝ) - c.1) * t.psf.px a b) - γ * (((b : ℝ) - c.2) * t.psf.px a b) := by
    intro a ha b hb
    rw [mem_range] at ha hb
    have m1 : mirrorAt d.interped.h (i + (t.psf.h / 2 : ℕ) - a) = ((i + t.psf.h / 2 - a : ℕ) : ℤ) := by
      unfold mirrorAt
      rw [if_neg (by omega), if_pos (by omega)]
      omega
    have m2 : mirrorAt d.interped.w (j + (t.psf.w / 2 : ℕ) - b) = ((j + t.psf.w / 2 - b : ℕ) : ℤ) := by
      unfold mirrorAt
      rw [if_neg (by omega), if_pos (by omega)]
      omega
    rw [m1, m2, Int.toNat_natCast, Int.toNat_natCast, hf _ (by omega) _ (by omega),
      Nat.cast_sub (by omega), Nat.cast_sub (by omega), Nat.cast_add, Nat.cast_add]
    ring
  rw [Finset.sum_congr rfl fun a ha => Finset.sum_congr rfl fun b hb => e a ha b hb]
  have dist : ∀ (x : ℝ) (f : ℕ → ℕ → ℝ), ∑ a ∈ range t.psf.h, ∑ b ∈ range t.psf.w, x * f a b =
      x * ∑ a ∈ range t.psf.h, ∑ b ∈ range t.psf.w, f a b := by
    intro x f
    simp only [Finset.mul_sum]
  simp only [Finset.sum_sub_distrib]
  rw [dist _ t.psf.px, dist β fun a b => ((a : ℝ) - c.1) * t.psf.px a b,
    dist γ fun a b => ((b : ℝ) - c.2) * t.psf.px a b, hc.1, hc.2]
  unfold psfTotal
  ring

/-- C109: at the upper and left edges the field is reflected: a one-pixel element off its middle reads
the reflected position. -/
theorem varpsf_normal_edge (d : VarPsf) (t : PsfTerm) (hd : d.terms = [t]) (m : ℕ) (hm : 2 * m + 1 ≤ d.interped.h)
    (hp : t.psf = ⟨2 * m + 1, 1, fun a _ => if a = 2 * m then 1 else 0⟩) (i j : ℕ) (hi : i < m)
    (hj : j < d.interped.w) : d.normalImg.px i j = t.field (m - 1 - i) j := by
  rw [varpsf_normal_px d (by
    rw [hd]; intro t' ht'; rw [List.mem_singleton] at ht'; subst ht'; rw [hp]; constructor <;> simp only <;> omega) i j
    (by omega) (by omega), hd, List.map_singleton, List.sum_singleton, hp]
  simp only [Finset.sum_range_one, ite_mul, one_mul, zero_mul, Finset.sum_ite_eq', mem_range]
  rw [if_pos (by omega)]
  have m1 : mirrorAt d.interped.h (i + ((2 * m + 1) / 2 : ℕ) - (2 * m : ℕ)) = ((m - 1 - i : ℕ) : ℤ) := by
    unfold mirrorAt
    rw [if_pos (by omega)]
    omega
  have m2 : mirrorAt d.interped.w (j + (1 / 2 : ℕ) - (0 : ℕ)) = (j : ℤ) := by
    unfold mirrorAt
    rw [if_neg (by omega), if_pos (by omega)]
    omega
  rw [m1, m2, Int.toNat_natCast, Int.toNat_natCast]

/-! ## C110 -/

/-- The basis with each element multiplied by its own factor and its field divided by it. -/
noncomputable def rescaledTerms (ts : List (ℝ × PsfTerm)) : List PsfTerm :=
  ts.map fun p => ⟨fun i j => p.2.field i j / p.1, ⟨p.2.psf.h, p.2.psf.w, fun a b => p.1 * p.2.psf.px a b⟩⟩

theorem psfCentroid_rescale (p : Img ℝ) (c : ℝ) (hc : c ≠ 0) :
    psfCentroid ⟨p.h, p.w, fun a b => c * p.px a b⟩ = psfCentroid p := by
  have e : ∀ f : ℕ → ℕ → ℝ, ∑ i ∈ range p.h, ∑ j ∈ range p.w, f i j * (c * p.px i j) =
      c * ∑ i ∈ range p.h, ∑ j ∈ range p.w, f i j * p.px i j := by
    intro f
    rw [Finset.mul_sum]
    refine Finset.sum_congr rfl fun i _ => ?_
    rw [Finset.mul_sum]
    exact Finset.sum_congr rfl fun j _ => by ring
  have e1 := e fun _ _ => 1
  simp only [one_mul] at e1
  unfold psfCentroid
  simp only
  rw [e fun i _ => (i : ℝ), e fun _ j => (j : ℝ), e1, mul_div_mul_left _ _ hc, mul_div_mul_left _ _ hc]

theorem ndConvolve_rescale (h w : ℕ) (f : ℕ → ℕ → ℝ) (p : Img ℝ) (c : ℝ) (hc : c ≠ 0) (i j : ℕ) :
    (ndConvolve ⟨h, w, fun i j => f i j / c⟩ ⟨p.h, p.w, fun a b => c * p.px a b⟩).px i j =
      (ndConvolve ⟨h, w, f⟩ p).px i j := by
  unfold ndConvolve
  simp only
  refine Finset.sum_congr rfl fun a _ => Finset.sum_congr rfl fun b _ => ?_
  field_simp

/-- Scaling the elements of the basis, with their coefficients scaled back, does not change the
normalisation image. -/
theorem varpsf_normal_rescale (d d' : VarPsf) (ts : List (ℝ × PsfTerm)) (hc : ∀ p ∈ ts, p.1 ≠ 0)
    (hd : d.terms = ts.map (·.2)) (hd' : d' = { d with terms := rescaledTerms ts }) (i j : ℕ) :
    d'.normalImg.px i j = d.normalImg.px i j := by
  subst hd'
  change ((rescaledTerms ts).map fun t => (ndConvolve ⟨d.interped.h, d.interped.w, t.field⟩ t.psf).px i j).sum =
    (d.terms.map fun t => (ndConvolve ⟨d.interped.h, d.interped.w, t.field⟩ t.psf).px i j).sum
  rw [hd, rescaledTerms, List.map_map, List.map_map]
  refine congrArg List.sum (List.map_congr_left fun p hp => ?_)
  exact ndConvolve_rescale _ _ _ _ _ (hc p hp) i j

/-- C110: the matched filter does not depend on the scale given to each basis element. -/
theorem varpsf_filter_rescale (d d' : VarPsf) (ts : List (ℝ × PsfTerm)) (hc : ∀ p ∈ ts, p.1 ≠ 0)
    (hd : d.terms = ts.map (·.2)) (hd' : d' = { d with terms := rescaledTerms ts }) (k l : ℕ) :
    d'.sHatComp.px k l = d.sHatComp.px k l := by
  have hn := varpsf_normal_rescale d d' ts hc hd hd'
  have hcom : d'.com = d.com := by
    subst hd'
    unfold VarPsf.com
    rw [hd]
    cases ts with
    | nil => rfl
    | cons p ts => exact psfCentroid_rescale p.2.psf p.1 (hc p (List.mem_cons_self ..))
  have hh : d'.interped = d.interped := by rw [hd']
  have ht : d'.terms = rescaledTerms ts := by rw [hd']
  have hz : d'.zp = d.zp ∧ d'.var = d.var := by rw [hd']; exact ⟨rfl, rfl⟩
  change ((d'.zp / d'.var ^ 2 : ℝ) : ℂ) * (d'.terms.map fun t => (d'.termHat t).px k l).sum =
    ((d.zp / d.var ^ 2 : ℝ) : ℂ) * (d.terms.map fun t => (d.termHat t).px k l).sum
  rw [hz.1, hz.2, ht, hd, rescaledTerms, List.map_map, List.map_map]
  congr 2
  refine List.map_congr_left fun p hp => ?_
  have h0 := hc p hp
  have h0' : ((p.1 : ℝ) : ℂ) ≠ 0 := by exact_mod_cast h0
  change (fftOrtho (⟨d'.interped.h, d'.interped.w, fun i j =>
      ((d'.interped.px i j * (p.2.field i j / p.1) / d'.normalImg.px i j : ℝ) : ℂ)⟩ : Img ℂ)).px k l *
      (starRingEnd ℂ) ((fftOrtho (⟨d'.interped.h, d'.interped.w, fun a b =>
        if a < p.2.psf.h ∧ b < p.2.psf.w then ((p.1 * p.2.psf.px a b : ℝ) : ℂ) else 0⟩ : Img ℂ)).px k l) *
      shiftPhase d'.interped.h d'.interped.w d'.com k l =
    (fftOrtho (⟨d.interped.h, d.interped.w, fun i j =>
      ((d.interped.px i j * p.2.field i j / d.normalImg.px i j : ℝ) : ℂ)⟩ : Img ℂ)).px k l *
      (starRingEnd ℂ) ((fftOrtho (⟨d.interped.h, d.interped.w, fun a b =>
        if a < p.2.psf.h ∧ b < p.2.psf.w then ((p.2.psf.px a b : ℝ) : ℂ) else 0⟩ : Img ℂ)).px k l) *
      shiftPhase d.interped.h d.interped.w d.com k l
  rw [hh, hcom]
  rw [fftOrtho_smul d.interped.h d.interped.w
      (fun i j => ((d.interped.px i j * (p.2.field i j / p.1) / d'.normalImg.px i j : ℝ) : ℂ))
      (fun i j => ((d.interped.px i j * p.2.field i j / d.normalImg.px i j : ℝ) : ℂ)) ((p.1 : ℂ)⁻¹) (by
        intro i j
        rw [hn]
        push_cast
        field_simp),
    fftOrtho_smul d.interped.h d.interped.w
      (fun a b => if a < p.2.psf.h ∧ b < p.2.psf.w then ((p.1 * p.2.psf.px a b : ℝ) : ℂ) else 0)
      (fun a b => if a < p.2.psf.h ∧ b < p.2.psf.w then ((p.2.psf.px a b : ℝ) : ℂ) else 0) (p.1 : ℂ) (by
        intro i j
        split_ifs
        · push_cast; rfl
        · rw [mul_zero]), map_mul, Complex.conj_ofReal]
  field_simp

/-- C110, the defect: the PSF power does. With one factor `c` for the whole basis it is multiplied by
`c²`. -/
theorem varpsf_power_rescale (d d' : VarPsf) (c : ℝ)
    (hd' : d' = { d with terms := rescaledTerms (d.terms.map fun t => (c, t)) }) (k l : ℕ) :
    d'.psfSqnorm.px k l = ((c ^ 2 : ℝ) : ℂ) * d.psfSqnorm.px k l := by
  subst hd'
  rw [varpsf_power, varpsf_power]
  have key : ∀ t : PsfTerm, Complex.normSq ((d.psfHat ⟨t.psf.h, t.psf.w, fun a b => c * t.psf.px a b⟩).px k l) =
      c ^ 2 * Complex.normSq ((d.psfHat t.psf).px k l) := by
    intro t
    have : (d.psfHat ⟨t.psf.h, t.psf.w, fun a b => c * t.psf.px a b⟩).px k l = (c : ℂ) * (d.psfHat t.psf).px k l := by
      refine fftOrtho_smul d.interped.h d.interped.w
        (fun a b => if a < t.psf.h ∧ b < t.psf.w then ((c * t.psf.px a b : ℝ) : ℂ) else 0)
        (fun a b => if a < t.psf.h ∧ b < t.psf.w then ((t.psf.px a b : ℝ) : ℂ) else 0) (c : ℂ) (fun i j => ?_) k l
      split_ifs
      · push_cast; rfl
      · rw [mul_zero]
    rw [this, Complex.normSq_mul, Complex.normSq_ofReal, sq]
  rw [← Complex.ofReal_mul, ← List.sum_map_mul_left]
  refine congrArg Complex.ofReal (congrArg List.sum ?_)
  change (rescaledTerms _).map _ = _
  rw [rescaledTerms, List.map_map, List.map_map]
  exact List.map_congr_left fun t _ => key t

/-- The hypotheses hold: the star of `starDemo` with its PSF doubled and its coefficient halved gives the
same filtered image, but four times the power. -/
example (k l : ℕ) :
    ({ splitDemo with terms := rescaledTerms (splitDemo.terms.map fun t => (2, t)) } : VarPsf).sHatComp.px k l =
        splitDemo.sHatComp.px k l ∧
      ({ splitDemo with terms := rescaledTerms (splitDemo.terms.map fun t => (2, t)) } : VarPsf).psfSqnorm.px k l =
        ((2 ^ 2 : ℝ) : ℂ) * splitDemo.psfSqnorm.px k l :=
  ⟨varpsf_filter_rescale splitDemo _ _ (by
      intro p hp
      obtain ⟨t, _, rfl⟩ := List.mem_map.1 hp
      norm_num) (by rw [List.map_map]; exact (List.map_id _).symm) rfl k l,
    varpsf_power_rescale splitDemo _ 2 rfl k l⟩

/-- A 5 x 5 image with one basis element, centred one row below its middle, and a field growing
downwards. -/
noncomputable def slopedDemo : VarPsf where
  interped := ⟨5, 5, fun _ _ => 1⟩
  terms := [⟨fun i _ => 1 + i, ⟨3, 1, fun a _ => if a = 2 then 1 else 0⟩⟩]
  zp := 1
  var := 1
  mask := none

/-- The hypotheses hold: its normalisation image is the field one row above, reflected in the top row. -/
example : slopedDemo.normalImg.px 2 0 = 2 ∧ slopedDemo.normalImg.px 0 0 = 1 := by
  refine ⟨?_, ?_⟩
  · rw [varpsf_normal_linear slopedDemo _ rfl (2, 0) (by
      unfold BalancePoint
      simp) 1 1 0 (fun i _ j _ => by ring) 2 0 (by decide) (by decide) (by decide) (by decide)]
    unfold psfTotal
    simp
    norm_num
  · rw [varpsf_normal_edge slopedDemo _ rfl 1 (by decide) rfl 0 0 (by decide) (by decide)]
    norm_num

end PI
