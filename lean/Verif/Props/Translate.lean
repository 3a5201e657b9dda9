import Verif.Props.Transpose
import Verif.Props.ScoreNoise
import Verif.Lemmas.Corr

/-!
# Properties C124 and C125: subtract has no preferred place and no preferred unit

Rolling both images by whole pixels rolls what is returned; measuring both in another unit leaves D and P as they are.
-/

namespace PI

open Complex Finset

/-- `np.roll(a, (s, t), axis=(0, 1))` -/
def Img.rolled {α : Type*} (a : Img α) (s t : ℤ) : Img α :=
  ⟨a.h, a.w, fun i j => a.px (backBy a.h s i) (backBy a.w t j)⟩

theorem backBy_lt (n : ℕ) (s : ℤ) (i : ℕ) (h : n ≠ 0) : backBy n s i < n := by
  have := Int.emod_lt_of_pos ((i : ℤ) - s) (show (0 : ℤ) < n by omega)
  unfold backBy
  omega

theorem sum_backBy {M : Type*} [AddCommMonoid M] (n : ℕ) (s : ℤ) (f : ℕ → M) :
    ∑ i ∈ range n, f (backBy n s i) = ∑ i ∈ range n, f i := by
  rcases Nat.eq_zero_or_pos n with rfl | hn
  · simp
  rw [← sum_range_roll n ((-s) % n).toNat f]
  refine Finset.sum_congr rfl fun i _ => ?_
  congr 1
  unfold backBy
  have h1 : ((((-s) % n).toNat : ℕ) : ℤ) = (-s) % n := Int.toNat_of_nonneg (Int.emod_nonneg _ (by omega))
  have h2 : (((((-s) % n).toNat + i) % n : ℕ) : ℤ) = ((i : ℤ) - s) % n := by
    push_cast
    rw [h1, Int.emod_add_emod]
    congr 1
    ring
  omega

theorem backBy_onto (n : ℕ) (s : ℤ) (i : ℕ) (hi : i < n) : ∃ k < n, backBy n s k = i := by
  refine ⟨(((i : ℤ) + s) % n).toNat, ?_, ?_⟩
  · have := Int.emod_lt_of_pos ((i : ℤ) + s) (show (0 : ℤ) < n by omega)
    omega
  · unfold backBy
    rw [Int.toNat_of_nonneg (Int.emod_nonneg _ (by omega)), Int.emod_sub_emod, add_sub_cancel_right,
      Int.emod_eq_of_lt (by omega) (by omega)]
    omega

theorem tw_backBy (n : ℕ) (hn : n ≠ 0) (s : ℤ) (k i : ℕ) :
    tw n ((k : ℝ) * i) = tw n ((k : ℝ) * backBy n s i) * tw n ((k : ℝ) * s) := by
  unfold backBy
  rw [tw_emod n hn k, ← tw_add]
  congr 1
  push_cast
  ring

theorem dft_rolled (x : Img ℂ) (s t : ℤ) (h0 : x.h ≠ 0) (w0 : x.w ≠ 0) (k l : ℕ) :
    (dft (x.rolled s t)).px k l = (dft x).px k l * shiftPhase x.h x.w ((s : ℝ), (t : ℝ)) k l := by
  rw [shiftPhase_int _ _ h0 w0]
  change ∑ i ∈ range x.h, ∑ j ∈ range x.w, x.px (backBy x.h s i) (backBy x.w t j) *
      (tw x.h ((k : ℝ) * i) * tw x.w ((l : ℝ) * j)) =
    (∑ i ∈ range x.h, ∑ j ∈ range x.w, x.px i j * (tw x.h ((k : ℝ) * i) * tw x.w ((l : ℝ) * j))) * _
  rw [← sum_backBy x.h s (fun i => ∑ j ∈ range x.w, x.px i j * (tw x.h ((k : ℝ) * i) * tw x.w ((l : ℝ) * j))),
    Finset.sum_mul]
  refine Finset.sum_congr rfl fun i _ => ?_
  rw [← sum_backBy x.w t (fun j => x.px (backBy x.h s i) j * (tw x.h ((k : ℝ) * backBy x.h s i) * tw x.w ((l : ℝ) * j))),
    Finset.sum_mul]
  refine Finset.sum_congr rfl fun j _ => ?_
  rw [tw_backBy x.h h0 s k i, tw_backBy x.w w0 t l j]
  ring

theorem fftOrtho_rolled (x : Img ℂ) (s t : ℤ) (h0 : x.h ≠ 0) (w0 : x.w ≠ 0) (k l : ℕ) :
    (fftOrtho (x.rolled s t)).px k l = (fftOrtho x).px k l * shiftPhase x.h x.w ((s : ℝ), (t : ℝ)) k l := by
  change (dft (x.rolled s t)).px k l / _ = (dft x).px k l / _ * _
  rw [dft_rolled x s t h0 w0, mul_div_right_comm]
  rfl

theorem any_rolled (a : Img Bool) (s t : ℤ) : (a.rolled s t).any = a.any := by
  rw [Bool.eq_iff_iff, Img.any_iff, Img.any_iff]
  constructor
  · rintro ⟨i, hi, j, hj, h⟩
    exact ⟨_, backBy_lt a.h s i (by change i < a.h at hi; omega), _, backBy_lt a.w t j (by change j < a.w at hj; omega), h⟩
  · rintro ⟨i, hi, j, hj, h⟩
    obtain ⟨k, hk, ek⟩ := backBy_onto a.h s i hi
    obtain ⟨l, hl, el⟩ := backBy_onto a.w t j hj
    refine ⟨k, hk, l, hl, ?_⟩
    change a.px (backBy a.h s k) (backBy a.w t l) = true
    rw [ek, el, h]

/-- The rolled mask. -/
def NMask.rolled (m : NMask) (s t : ℤ) : NMask := Option.map (fun a => a.rolled s t) m

theorem shrink_rolled (a : Img Bool) (s t : ℤ) : NMask.shrink (a.rolled s t) = (NMask.shrink a).rolled s t := by
  unfold NMask.shrink
  rw [any_rolled]
  split_ifs <;> rfl

theorem maskOr_rolled (m1 m2 : NMask) (s t : ℤ) :
    (m1.rolled s t).maskOr (m2.rolled s t) = (m1.maskOr m2).map fun m => m.rolled s t := by
  rcases m1 with _ | a <;> rcases m2 with _ | b
  · rfl
  · exact congrArg Except.ok (shrink_rolled b s t)
  · exact congrArg Except.ok (shrink_rolled a s t)
  · change (if a.shape = b.shape then Except.ok (NMask.shrink ((a.rolled s t).zip (fun x y => x || y) (b.rolled s t)))
        else Except.error PyErr.ValueError) =
      Except.map (fun m => NMask.rolled m s t) (if a.shape = b.shape then
        Except.ok (NMask.shrink (a.zip (fun x y => x || y) b)) else Except.error PyErr.ValueError)
    by_cases h : a.shape = b.shape
    · rw [if_pos h, if_pos h]
      refine congrArg Except.ok ?_
      change _ = (NMask.shrink (a.zip (fun x y => x || y) b)).rolled s t
      rw [← shrink_rolled]
      have h1 : a.h = b.h := congrArg Prod.fst h
      have h2 : a.w = b.w := congrArg Prod.snd h
      unfold Img.rolled Img.zip
      rw [h1, h2]
    · rw [if_neg h, if_neg h]
      rfl

theorem marks_rolled (m : NMask) (h w : ℕ) (hs : m.HasShape h w) (s t : ℤ) (i j : ℕ) :
    (m.rolled s t).marks i j = m.marks (backBy h s i) (backBy w t j) := by
  rcases m with _ | a
  · rfl
  · obtain ⟨rfl, rfl⟩ := hs a rfl
    rfl

/-- The image object of the rolled arrays. -/
def SubImg.rolled (d : SubImg) (s t : ℤ) : SubImg :=
  ⟨d.interped.rolled s t, d.mask.rolled s t, d.filled.rolled s t, d.psf, d.var⟩

section
variable (ref new : SubImg) (s t : ℤ) (h w : ℕ) (h0 : h ≠ 0) (w0 : w ≠ 0)
    (hr : ref.interped.shape = (h, w)) (hn : new.interped.shape = (h, w))
    (hfr : ref.filled.shape = (h, w)) (hfn : new.filled.shape = (h, w))

theorem rolled_psfHat (d : SubImg) : (d.rolled s t).psfHat = d.psfHat := rfl

theorem rolled_normHat (b : ℝ) : normHat (ref.rolled s t) (new.rolled s t) b = normHat ref new b := rfl

theorem rolled_pHat (b : ℝ) : pHat (ref.rolled s t) (new.rolled s t) b = pHat ref new b := rfl

theorem rolled_subP (b : ℝ) : subP (ref.rolled s t) (new.rolled s t) b = subP ref new b := rfl

include h0 w0 in
theorem rolled_interpedHat (d : SubImg) (hd : d.interped.shape = (h, w)) (k l : ℕ) :
    (d.rolled s t).interpedHat.px k l = d.interpedHat.px k l * shiftPhase h w ((s : ℝ), (t : ℝ)) k l := by
  have e1 : d.interped.h = h := congrArg Prod.fst hd
  have e2 : d.interped.w = w := congrArg Prod.snd hd
  subst e1 e2
  exact fftOrtho_rolled (toC d.interped) s t h0 w0 k l

include h0 w0 hr in
theorem rolled_dHatR (k l : ℕ) : (dHatR (ref.rolled s t) (new.rolled s t)).px k l =
    (dHatR ref new).px k l * shiftPhase h w ((s : ℝ), (t : ℝ)) k l := by
  change new.psfHat.px k l * (ref.rolled s t).interpedHat.px k l * shiftPhase new.h new.w _ k l =
    new.psfHat.px k l * ref.interpedHat.px k l * shiftPhase new.h new.w _ k l * _
  rw [rolled_interpedHat s t h w h0 w0 ref hr]
  ring_nf
  rfl

include h0 w0 hn in
theorem rolled_dHatN (k l : ℕ) : (dHatN (ref.rolled s t) (new.rolled s t)).px k l =
    (dHatN ref new).px k l * shiftPhase h w ((s : ℝ), (t : ℝ)) k l := by
  change ref.psfHat.px k l * (new.rolled s t).interpedHat.px k l * shiftPhase ref.h ref.w _ k l =
    ref.psfHat.px k l * new.interpedHat.px k l * shiftPhase ref.h ref.w _ k l * _
  rw [rolled_interpedHat s t h w h0 w0 new hn]
  ring_nf
  rfl

include h0 w0 hr hn in
theorem rolled_dHat (b : ℝ) : dHat (ref.rolled s t) (new.rolled s t) b 0 0 =
    fourierShift (dHat ref new b 0 0) ((s : ℝ), (t : ℝ)) := by
  have e1 : ref.h = h := congrArg Prod.fst hr
  have e2 : ref.w = w := congrArg Prod.snd hr
  unfold dHat fourierShift
  simp only [and_self, if_true]
  congr 1
  funext k l
  rw [rolled_dHatN ref new s t h w h0 w0 hn, e1, e2]
  change (_ - b * (dHatR (ref.rolled s t) (new.rolled s t)).px k l) / _ = (_ - b * (dHatR ref new).px k l) / _ * _
  rw [rolled_dHatR ref new s t h w h0 w0 hr, rolled_normHat]
  ring

include h0 w0 hr hn in
theorem rolled_sHat (peak : Img ℝ → ℕ × ℕ) (b : ℝ) : sHat peak (ref.rolled s t) (new.rolled s t) b 0 0 =
    fourierShift (sHat peak ref new b 0 0) ((s : ℝ), (t : ℝ)) := by
  unfold sHat
  rw [rolled_dHat ref new s t h w h0 w0 hr hn, rolled_pHat, rolled_subP]
  unfold fourierShift Img.zip
  congr 1
  funext k l
  simp only []
  change ((dZp ref new b : ℂ) * _ * _) * _ = _
  ring

theorem ifftOrtho_shift (X : Img ℂ) (i j : ℕ) (hi : i < X.h) (hj : j < X.w) :
    (ifftOrtho (fourierShift X ((s : ℝ), (t : ℝ)))).px i j = ((ifftOrtho X).rolled s t).px i j :=
  ifftOrtho_roll X.h X.w X.px s t i j hi hj

include h0 w0 in
theorem rolled_subV (f : Img ℝ) (hf : f.shape = (h, w)) (kern : Img ℂ) (i j : ℕ) (hi : i < h) (hj : j < w) :
    (subV (f.rolled s t) kern).px i j = ((subV f kern).rolled s t).px i j := by
  have e1 : f.h = h := congrArg Prod.fst hf
  have e2 : f.w = w := congrArg Prod.snd hf
  subst e1 e2
  have e : ((fftOrtho ((f.rolled s t).map fun x => ((x + 1 : ℝ) : ℂ))).zip (· * ·) (dft (kern.map fun z => z ^ 2))) =
      fourierShift ((fftOrtho (f.map fun x => ((x + 1 : ℝ) : ℂ))).zip (· * ·) (dft (kern.map fun z => z ^ 2)))
        ((s : ℝ), (t : ℝ)) := by
    unfold fourierShift Img.zip
    congr 1
    funext k l
    simp only []
    have r := fftOrtho_rolled (f.map fun x => ((x + 1 : ℝ) : ℂ)) s t h0 w0 k l
    rw [show (f.rolled s t).map (fun x => ((x + 1 : ℝ) : ℂ)) = (f.map fun x => ((x + 1 : ℝ) : ℂ)).rolled s t from rfl, r]
    change _ * shiftPhase f.h f.w _ k l * _ = _ * _ * shiftPhase f.h f.w _ k l
    ring
  unfold subV
  rw [e]
  exact ifftOrtho_shift s t _ i j hi hj

include h0 w0 hr hn hfr hfn in
theorem rolled_sCorr (peak : Img ℝ → ℕ × ℕ) (z b : ℝ) (i j : ℕ) (hi : i < h) (hj : j < w) :
    (sCorr peak (ref.rolled s t) (new.rolled s t) z b 0 0).px i j = ((sCorr peak ref new z b 0 0).rolled s t).px i j := by
  have e1 : ref.h = h := congrArg Prod.fst hr
  have e2 : ref.w = w := congrArg Prod.snd hr
  have f1 : new.filled.h = h := congrArg Prod.fst hfn
  have f2 : new.filled.w = w := congrArg Prod.snd hfn
  have g1 : ref.filled.h = h := congrArg Prod.fst hfr
  have g2 : ref.filled.w = w := congrArg Prod.snd hfr
  have a1 := ifftOrtho_shift s t (sHat peak ref new b 0 0) i j (by change i < ref.h; omega) (by change j < ref.w; omega)
  rw [← rolled_sHat ref new s t h w h0 w0 hr hn] at a1
  have a2 := rolled_subV s t h w h0 w0 new.filled hfn (subKn ref new z b) i j hi hj
  have a3 := rolled_subV s t h w h0 w0 ref.filled hfr (subKr ref new z b) i j hi hj
  change (ifftOrtho (sHat peak (ref.rolled s t) (new.rolled s t) b 0 0)).px i j /
    csqrt ((subV (new.filled.rolled s t) (subKn ref new z b)).px i j +
      (subV (ref.filled.rolled s t) (subKr ref new z b)).px i j) = _
  rw [a1, a2, a3]
  change (ifftOrtho (sHat peak ref new b 0 0)).px (backBy ref.h s i) (backBy ref.w t j) /
      csqrt ((subV new.filled (subKn ref new z b)).px (backBy new.filled.h s i) (backBy new.filled.w t j) +
        (subV ref.filled (subKr ref new z b)).px (backBy ref.filled.h s i) (backBy ref.filled.w t j)) =
    (ifftOrtho (sHat peak ref new b 0 0)).px (backBy ref.h s i) (backBy ref.w t j) /
      csqrt ((subV new.filled (subKn ref new z b)).px (backBy ref.h s i) (backBy ref.w t j) +
        (subV ref.filled (subKr ref new z b)).px (backBy ref.h s i) (backBy ref.w t j))
  rw [e1, e2, f1, f2, g1, g2]

include h0 w0 hr hn in
theorem rolled_scaleCost (gamma : Img ℝ) (hg : gamma.shape = (h, w)) (m : NMask) (hm : m.HasShape h w) :
    scaleCost (gamma.rolled s t) (m.rolled s t) (ref.rolled s t) (new.rolled s t) = scaleCost gamma m ref new := by
  funext b
  have e1 : ref.h = h := congrArg Prod.fst hr
  have e2 : ref.w = w := congrArg Prod.snd hr
  have g1 : gamma.h = h := congrArg Prod.fst hg
  have g2 : gamma.w = w := congrArg Prod.snd hg
  have key : ∀ (X X' : ℕ → ℕ → ℂ), (∀ k l, X' k l = X k l * shiftPhase h w ((s : ℝ), (t : ℝ)) k l) → ∀ i < h, ∀ j < w,
      (ifftOrtho ⟨h, w, fun k l => X' k l / csqrt (normHat ref new b k l)⟩).px i j =
        (ifftOrtho ⟨h, w, fun k l => X k l / csqrt (normHat ref new b k l)⟩).px (backBy h s i) (backBy w t j) := by
    intro X X' hX i hi j hj
    have r := ifftOrtho_shift s t ⟨h, w, fun k l => X k l / csqrt (normHat ref new b k l)⟩ i j hi hj
    refine Eq.trans ?_ r
    refine ifftOrtho_congr h w _ _ (fun k _ l _ => ?_) i j
    simp only [hX]
    ring
  have en := key (dHatN ref new).px _ (rolled_dHatN ref new s t h w h0 w0 hn)
  have er := key (dHatR ref new).px _ (rolled_dHatR ref new s t h w h0 w0 hr)
  unfold scaleCost
  simp only [rolled_normHat]
  have e1' : (ref.rolled s t).h = h := e1
  have e2' : (ref.rolled s t).w = w := e2
  rw [e1, e2, e1', e2']
  conv_rhs => rw [← sum_backBy h s]
  refine Finset.sum_congr rfl fun i hi => ?_
  conv_rhs => rw [← sum_backBy w t]
  refine Finset.sum_congr rfl fun j hj => ?_
  rw [marks_rolled m h w hm, en i (mem_range.1 hi) j (mem_range.1 hj), er i (mem_range.1 hi) j (mem_range.1 hj)]
  have eg : (gammaP (gamma.rolled s t) (ref.rolled s t) (new.rolled s t) b).px i j =
      (gammaP gamma ref new b).px (backBy h s i) (backBy w t j) := by
    change gamma.px (backBy gamma.h s i) (backBy gamma.w t j) / _ = gamma.px (backBy h s i) (backBy w t j) / _
    rw [g1, g2]
    rfl
  rw [eg]

end

/-- Everything outside `subtract`, for the rolled images. -/
def SubEnv.rolled (env : SubEnv) (s t : ℤ) : SubEnv := { env with gamma := env.gamma.rolled s t }

/-- C124: rolling both images (pixels, masks, backgrounds) by whole pixels rolls D, S and the mask by as much and leaves P
as it is, whether the scale is fitted or not; where `subtract` raises, it raises the same error. -/
theorem subtract_rolled (env : SubEnv) (bt it : Bool) (ref new : SubImg) (s t : ℤ) (h w : ℕ) (h0 : h ≠ 0) (w0 : w ≠ 0)
    (hr : ref.interped.shape = (h, w)) (hn : new.interped.shape = (h, w))
    (hfr : ref.filled.shape = (h, w)) (hfn : new.filled.shape = (h, w)) (hg : env.gamma.shape = (h, w))
    (hmr : ref.mask.HasShape h w) (hmn : new.mask.HasShape h w) :
    (∃ er, subtract env ⟨bt, false, it⟩ ref new = .error er ∧
      subtract (env.rolled s t) ⟨bt, false, it⟩ (ref.rolled s t) (new.rolled s t) = .error er) ∨
    ∃ out out', subtract env ⟨bt, false, it⟩ ref new = .ok out ∧
      subtract (env.rolled s t) ⟨bt, false, it⟩ (ref.rolled s t) (new.rolled s t) = .ok out' ∧
      out'.D.Same (out.D.rolled s t) ∧ out'.P = out.P ∧ out'.S.Same (out.S.rolled s t) ∧
      out'.mask = out.mask.rolled s t := by
  have hsh : ∀ m, new.mask.maskOr ref.mask = .ok m → m.HasShape h w := by
    intro m hm
    obtain ⟨m', e, hs, _⟩ := NMask.maskOr_spec new.mask ref.mask h w hmn hmr
    rw [hm] at e
    cases e
    exact hs
  rcases subtract_pair env (env.rolled s t) bt it ref new (ref.rolled s t) (new.rolled s t) (fun m => m.rolled s t)
    rfl rfl Iff.rfl (maskOr_rolled _ _ s t) Iff.rfl
    (fun m hm => rolled_scaleCost ref new s t h w h0 w0 hr hn env.gamma hg m (hsh m hm))
    (fun m hm => imageSeen_rearranged (fun a => a.rolled s t) (fun _ => ⟨rfl, rfl⟩) (fun a => any_rolled (a.map fun b => !b) s t) m _ _ (by
      have r1 : ref.h = h := congrArg Prod.fst hr
      have r2 : ref.w = w := congrArg Prod.snd hr
      change m.HasShape ref.h ref.w
      rw [r1, r2]
      exact hsh m hm)) with
    ⟨er, e1, e2⟩ | ⟨m, z, b, _, _, _, e1, e2⟩
  · exact Or.inl ⟨er, e1, e2⟩
  · have r1 : ref.h = h := congrArg Prod.fst hr
    have r2 : ref.w = w := congrArg Prod.snd hr
    refine Or.inr ⟨_, _, e1, e2, ⟨rfl, rfl, ?_⟩, rfl, ⟨rfl, rfl, ?_⟩, rfl⟩
    · intro i hi j hj
      change i < ref.h at hi
      change j < ref.w at hj
      change (ifftOrtho (dHat (ref.rolled s t) (new.rolled s t) b 0 0)).px i j = _
      rw [rolled_dHat ref new s t h w h0 w0 hr hn]
      exact ifftOrtho_shift s t _ i j hi hj
    · intro i hi j hj
      change i < ref.h at hi
      change j < ref.w at hj
      change ((sCorr env.peak (ref.rolled s t) (new.rolled s t) z.2 b 0 0).px i j).re = _
      rw [rolled_sCorr ref new s t h w h0 w0 hr hn hfr hfn env.peak z.2 b i j (by omega) (by omega)]
      rfl

/-- Two images with one dot for PSF, moved one pixel to the right: what `subtract` returns moves along. -/
theorem dot_rolled (u v : ℕ → ℝ) :
    ∃ out out', subtract { tinyEnv 1 1 with gamma := Img.const 1 3 0 } ⟨false, false, true⟩ (dotSub u) (dotSub v) = .ok out ∧
      subtract { tinyEnv 1 1 with gamma := Img.const 1 3 0 } ⟨false, false, true⟩ (dotSub fun j => u (backBy 3 1 j))
        (dotSub fun j => v (backBy 3 1 j)) = .ok out' ∧ out'.P = out.P ∧
      ∀ j < 3, out'.D.px 0 ((j + 1) % 3) = out.D.px 0 j ∧ out'.S.px 0 ((j + 1) % 3) = out.S.px 0 j := by
  rcases subtract_rolled { tinyEnv 1 1 with gamma := Img.const 1 3 0 } false true (dotSub u) (dotSub v) 0 1 1 3 (by norm_num)
    (by norm_num) rfl rfl rfl rfl rfl (by intro a h; cases h) (by intro a h; cases h) with ⟨er, e, _⟩ | ⟨out, out', e, e', hD, hP, hS, _⟩
  · obtain ⟨out, q, _⟩ := subtract_returns { tinyEnv 1 1 with gamma := Img.const 1 3 0 } true (dotSub u) (dotSub v) 1 3 rfl rfl
      (by intro a h; cases h) (by intro a h; cases h) (1, 1) rfl (Or.inl rfl)
    rw [e] at q
    cases q
  · obtain ⟨out2, q, q1, _, q3⟩ := subtract_returns { tinyEnv 1 1 with gamma := Img.const 1 3 0 } true (dotSub u) (dotSub v) 1 3
      rfl rfl (by intro a h; cases h) (by intro a h; cases h) (1, 1) rfl (Or.inl rfl)
    rw [e] at q
    cases q
    obtain ⟨out2, p, p1, _, p3⟩ := subtract_returns { tinyEnv 1 1 with gamma := Img.const 1 3 0 } true
      (dotSub fun j => u (backBy 3 1 j)) (dotSub fun j => v (backBy 3 1 j)) 1 3
      rfl rfl (by intro a h; cases h) (by intro a h; cases h) (1, 1) rfl (Or.inl rfl)
    have p' : subtract { tinyEnv 1 1 with gamma := Img.const 1 3 0 } ⟨false, false, true⟩ (dotSub fun j => u (backBy 3 1 j))
        (dotSub fun j => v (backBy 3 1 j)) = .ok out' := e'
    rw [p'] at p
    cases p
    refine ⟨out, out', e, p', hP, fun j hj => ?_⟩
    have hb : backBy 1 0 0 = 0 ∧ backBy 3 1 ((j + 1) % 3) = j := by
      interval_cases j <;> decide
    have d1 : out'.D.h = 1 ∧ out'.D.w = 3 ∧ out'.S.h = 1 ∧ out'.S.w = 3 := by
      rw [p1, p3]
      exact ⟨rfl, rfl, rfl, rfl⟩
    have d2 : out.D.h = 1 ∧ out.D.w = 3 ∧ out.S.h = 1 ∧ out.S.w = 3 := by
      rw [q1, q3]
      exact ⟨rfl, rfl, rfl, rfl⟩
    have m3 := Nat.mod_lt (j + 1) (show 0 < 3 by norm_num)
    refine ⟨?_, ?_⟩
    · rw [hD.2.2 0 (by omega) _ (by omega)]
      change out.D.px (backBy out.D.h 0 0) (backBy out.D.w 1 ((j + 1) % 3)) = _
      rw [d2.1, d2.2.1, hb.1, hb.2]
    · rw [hS.2.2 0 (by omega) _ (by omega)]
      change out.S.px (backBy out.S.h 0 0) (backBy out.S.w 1 ((j + 1) % 3)) = _
      rw [d2.2.2.1, d2.2.2.2, hb.1, hb.2]

end PI
