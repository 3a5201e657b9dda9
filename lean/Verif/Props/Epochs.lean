import Verif.Props.CoaddRef
import Verif.Props.DeepRef

/-!
# Property C196: the difference of two coadds

The exposures of one season are coadded, those of another season too, and `subtract` takes one coadd from the other. D is looked at
as a function of the pixels of all exposures.
-/

namespace PI

open Complex Finset

/-- Exposures `d` with PSFs `ψ` centred on the pixels `(A, B)`, and the image `im` that `subtract` is given for their coadd: it has the
PSF image that `coadd` returned and the noise of a coadd (C105). -/
structure Epoch (lt : List CoImg → List CoImg → Option Bool) {n : ℕ} (d : Fin n → SinglePsf) (h w a : ℕ) (procs : ℤ)
    (ψ : Fin n → Img ℝ) (A B : Fin n → ℤ) (im : SubImg) : Prop where
  some : 0 < n
  shape : ∀ j, (d j).interped.h = h ∧ (d j).interped.w = w ∧ (d j).mask.HasShape h w
  workers : procs ≤ n
  workers' : procs ≤ 2 ^ 25
  workers'' : procs * n ≤ 2 ^ 50
  real : ∀ m, (d m).psf = toC (ψ m)
  centred : ∀ m, (d m).com = ((A m : ℝ), (B m : ℝ))
  noise : ∀ m, (d m).var ≠ 0
  power : ∀ k < h, ∀ l < w, powerAt d k l ≠ 0
  imShape : im.interped.shape = (h, w)
  mask : im.mask.HasShape h w
  psf : ∃ out, coaddCore lt ((List.ofFn d).map SinglePsf.toCoImg) a procs = .ok out ∧ im.psf = out.Pr.map re
  com : centerOfMass im.psf = ((a : ℝ), (a : ℝ))
  var : im.var = 1 / Real.sqrt ((h * w : ℕ) : ℝ)
  idle : GuardIdle h w im.psf

/-- D of two coadds, as a function of the pixels of the exposures: the first ones are of the reference. -/
noncomputable def epochsOf (env : SubEnv) (o : SubOpts) (lt lt' : List CoImg → List CoImg → Option Bool) {n n' : ℕ}
    (d : Fin n → SinglePsf) (e : Fin n' → SinglePsf) (a a' : ℕ) (procs procs' : ℤ) (ref new : SubImg)
    (u : Fin n ⊕ Fin n' → Img ℝ) : Img ℂ :=
  diffOf env o ref new ((coaddOf lt d a procs fun m => toC (u (.inl m))).map re)
    ((coaddOf lt' e a' procs' fun m => toC (u (.inr m))).map re)

/-- Change of `D[i, j]` when pixel `(p, q)` of one of the exposures is one larger. -/
noncomputable def respEpochs (env : SubEnv) (o : SubOpts) (lt lt' : List CoImg → List CoImg → Option Bool) {n n' : ℕ}
    (d : Fin n → SinglePsf) (e : Fin n' → SinglePsf) (a a' : ℕ) (procs procs' : ℤ) (ref new : SubImg)
    (u : Fin n ⊕ Fin n' → Img ℝ) (c : Fin n ⊕ Fin n') (i j p q : ℕ) : ℂ :=
  (epochsOf env o lt lt' d e a a' procs procs' ref new fun c' => if c' = c then bump (u c') p q 1 else u c').px i j -
    (epochsOf env o lt lt' d e a a' procs procs' ref new u).px i j

/-- The noise of the exposures. -/
def epochsSigma {n n' : ℕ} (d : Fin n → SinglePsf) (e : Fin n' → SinglePsf) : Fin n ⊕ Fin n' → ℝ :=
  Sum.elim (fun m => (d m).var) fun m => (e m).var

/-- A star at `(X, Y)` shown by all exposures: `c` times the zero point by those of the reference, the zero point by the others. -/
def epochsStar (h w : ℕ) {n n' : ℕ} (d : Fin n → SinglePsf) (e : Fin n' → SinglePsf) (ψ : Fin n → Img ℝ) (A B : Fin n → ℤ)
    (ψ' : Fin n' → Img ℝ) (A' B' : Fin n' → ℤ) (c : ℝ) (X Y : ℤ) : Fin n ⊕ Fin n' → Img ℝ :=
  Sum.elim (fun m => skyStar h w (ψ m) (A m) (B m) X Y (c * (d m).zp))
    fun m => skyStar h w (ψ' m) (A' m) (B' m) X Y (e m).zp

/-- The squared signal to noise ratio of a star of flux one that only the new exposures show. -/
noncomputable def epochsInfo {n n' : ℕ} (d : Fin n → SinglePsf) (e : Fin n' → SinglePsf) (h w : ℕ) : ℝ :=
  ∑ k ∈ range h, ∑ l ∈ range w, (1 / powerAt d k l + 1 / powerAt e k l)⁻¹

/-- The gains from the exposures to D. -/
noncomputable def gainEpochs {n n' : ℕ} (d : Fin n → SinglePsf) (e : Fin n' → SinglePsf) (h w : ℕ) (ref new : SubImg) (b : ℝ) :
    Fin n ⊕ Fin n' → ℕ → ℕ → ℂ :=
  Sum.elim (fun m k l => gainRef ref new b 0 0 k l * gainCoadd d h w m k l) fun m k l => gainNew ref new b k l * gainCoadd e h w m k l

section
variable {lt : List CoImg → List CoImg → Option Bool} {n : ℕ} {d : Fin n → SinglePsf} {h w a : ℕ} {procs : ℤ}
    {ψ : Fin n → Img ℝ} {A B : Fin n → ℤ} {ref : SubImg} (E : Epoch lt d h w a procs ψ A B ref)
include E

theorem Epoch.pos (k l : ℕ) (hk : k < h) (hl : l < w) : 0 < powerAt d k l := powerAt_pos d h w E.power k l hk hl

theorem Epoch.hat (k l : ℕ) (hk : k < h) (hl : l < w) : ref.psfHat.px k l =
      ((Real.sqrt (powerAt d k l) / Real.sqrt (powerAt d 0 0) / Real.sqrt ((h * w : ℕ) : ℝ) : ℝ) : ℂ) *
        shiftPhase h w ((a : ℝ), (a : ℝ)) k l := by
  obtain ⟨out, ho, hp⟩ := E.psf
  exact chain_ref_hat lt E.some d h w a procs E.shape E.workers E.workers' E.workers'' ψ E.real ref E.imShape E.power out ho hp
    E.idle k l hk hl

theorem Epoch.normSq (k l : ℕ) (hk : k < h) (hl : l < w) : Complex.normSq (ref.psfHat.px k l) =
    powerAt d k l / powerAt d 0 0 / ((h * w : ℕ) : ℝ) := by
  have h0 : 0 < h := by omega
  have w0 : 0 < w := by omega
  rw [E.hat k l hk hl, normSq_mul, normSq_shiftPhase, mul_one, normSq_ofReal, ← pow_two, div_pow, div_pow,
    Real.sq_sqrt (E.pos k l hk hl).le, Real.sq_sqrt (E.pos 0 0 h0 w0).le, Real.sq_sqrt (by positivity)]

/-- A filter of the coadd is a filter of each exposure. -/
theorem Epoch.part (x : Fin n → Img ℝ) (hx : ∀ m, (x m).h = h ∧ (x m).w = w) (G : ℕ → ℕ → ℂ) (i j : ℕ) :
    ∑ p ∈ range h, ∑ q ∈ range w, ((((coaddOf lt d a procs fun m => toC (x m)).map re).px p q : ℝ) : ℂ) *
        impulseResp h w G i j p q =
      ∑ m, ∑ p ∈ range h, ∑ q ∈ range w, ((x m).px p q : ℂ) *
        impulseResp h w (fun k l => G k l * gainCoadd d h w m k l) i j p q := by
  obtain ⟨_, v⟩ := coadd_real_hat lt E.some d h w a procs E.shape E.workers E.workers' E.workers'' ψ E.real A B E.centred x hx
  set X : Img ℂ := ⟨h, w, fun k l => ∑ m, gainCoadd d h w m k l * (fftOrtho (toC (x m))).px k l⟩ with hX
  have f := filter_eq (ifftOrtho X) G i j
  have s1 : ∑ p ∈ range h, ∑ q ∈ range w, ((((coaddOf lt d a procs fun m => toC (x m)).map re).px p q : ℝ) : ℂ) *
        impulseResp h w G i j p q =
      ∑ p ∈ range h, ∑ q ∈ range w, (ifftOrtho X).px p q * impulseResp h w G i j p q := by
    refine Finset.sum_congr rfl fun p hp => Finset.sum_congr rfl fun q hq => ?_
    rw [v p (mem_range.1 hp) q (mem_range.1 hq)]
  rw [s1]
  refine f.symm.trans ?_
  have g : ∀ m, ∑ p ∈ range h, ∑ q ∈ range w, ((x m).px p q : ℂ) *
        impulseResp h w (fun k l => G k l * gainCoadd d h w m k l) i j p q =
      (ifftOrtho ⟨h, w, fun k l => G k l * gainCoadd d h w m k l * (fftOrtho (toC (x m))).px k l⟩).px i j := by
    intro m
    have f := filter_eq (toC (x m)) (fun k l => G k l * gainCoadd d h w m k l) i j
    have e1 : (toC (x m)).h = h := (hx m).1
    have e2 : (toC (x m)).w = w := (hx m).2
    rw [e1, e2] at f
    exact f.symm
  simp only [g]
  rw [← ifftOrtho_sum]
  refine ifftOrtho_congr h w _ _ (fun k hk l hl => ?_) i j
  rw [fftOrtho_ifftOrtho X k l hk hl, Finset.mul_sum]
  refine Finset.sum_congr rfl fun m _ => ?_
  ring

/-- The noise of the exposures in the coadd. -/
theorem Epoch.white (k l : ℕ) (hk : k < h) (hl : l < w) :
    ∑ m, (d m).var ^ 2 * Complex.normSq (gainCoadd d h w m k l) = ref.var ^ 2 := by
  have N0 : (0 : ℝ) < ((h * w : ℕ) : ℝ) := by exact_mod_cast Nat.mul_pos (by omega) (by omega)
  have pos := E.pos k l hk hl
  have e : ∀ m, (d m).var ^ 2 * Complex.normSq (gainCoadd d h w m k l) =
      (d m).zp ^ 2 / (d m).var ^ 2 * Complex.normSq ((d m).psfHat.px k l) / (powerAt d k l * ((h * w : ℕ) : ℝ)) := by
    intro m
    unfold gainCoadd
    rw [normSq_div, normSq_mul, normSq_mul, normSq_mul, normSq_ofReal, normSq_ofReal, normSq_ofReal,
      normSq_shiftPhase, normSq_conj, Real.mul_self_sqrt (zackayPower_nonneg _ _ _),
      Real.mul_self_sqrt (by positivity)]
    have := E.noise m
    unfold powerAt
    field_simp
  simp only [e]
  rw [← Finset.sum_div]
  change powerAt d k l / _ = _
  rw [E.var, div_pow, one_pow, Real.sq_sqrt N0.le]
  field_simp

theorem Epoch.var_ne (hh : h ≠ 0) (hw : w ≠ 0) : ref.var ≠ 0 := by
  rw [E.var]
  have : (0 : ℝ) < ((h * w : ℕ) : ℝ) := by exact_mod_cast Nat.mul_pos (by omega) (by omega)
  exact (one_div_pos.2 (Real.sqrt_pos.2 this)).ne'

/-- A star that all exposures show in proportion to their zero points, in the coadd: the star through the PSF image that `coadd` returned,
times the flux scale. -/
theorem Epoch.star (hh : h ≠ 0) (hw : w ≠ 0) (X Y : ℤ) (k l : ℕ) (hk : k < h) (hl : l < w) :
    ∑ m, gainCoadd d h w m k l * (fftOrtho (toC (skyStar h w (ψ m) (A m) (B m) X Y (d m).zp))).px k l =
      ((Real.sqrt (powerAt d 0 0) : ℝ) : ℂ) * (fftOrtho (toC (skyStar h w ref.psf a a X Y 1))).px k l := by
  rw [coadd_star_sum d h w E.shape ψ E.real A B E.centred hh hw E.power X Y k l hk hl, fftOrtho_skyStar h w hh hw,
    ← psfHat_idle ref h w (congrArg Prod.fst E.imShape) (congrArg Prod.snd E.imShape) E.idle k l hk hl, E.hat k l hk hl]
  have s : shiftPhase h w ((X : ℝ), (Y : ℝ)) k l =
      shiftPhase h w ((a : ℝ), (a : ℝ)) k l * shiftPhase h w (((X - a : ℤ) : ℝ), ((Y - a : ℤ) : ℝ)) k l := by
    rw [← shiftPhase_add]
    congr 2 <;> push_cast <;> ring
  rw [s]
  have q0 : ((Real.sqrt (powerAt d 0 0) : ℝ) : ℂ) ≠ 0 := by
    exact_mod_cast (Real.sqrt_pos.2 (E.pos 0 0 (by omega) (by omega))).ne'
  push_cast
  field_simp

end

section
variable (env : SubEnv) (it : Bool) {lt lt' : List CoImg → List CoImg → Option Bool} {n n' : ℕ} {d : Fin n → SinglePsf}
    {e : Fin n' → SinglePsf} {h w a a' : ℕ} {procs procs' : ℤ} {ψ : Fin n → Img ℝ} {A B : Fin n → ℤ}
    {ψ' : Fin n' → Img ℝ} {A' B' : Fin n' → ℤ} {ref new : SubImg} (E : Epoch lt d h w a procs ψ A B ref)
    (E' : Epoch lt' e h w a' procs' ψ' A' B' new) (hh : h ≠ 0) (hw : w ≠ 0) (z : ℝ × ℝ) (hz : env.zps = .ok z)
    (hb : z.2 / z.1 = Real.sqrt (powerAt e 0 0) / Real.sqrt (powerAt d 0 0))
    (u : Fin n ⊕ Fin n' → Img ℝ) (hu : ∀ c, (u c).h = h ∧ (u c).w = w)
include E E'

omit E in
theorem Epoch.fitted : env.fitted = true ∨ (0 ≤ (centerOfMass new.psf).1 ∧ 0 ≤ (centerOfMass new.psf).2) :=
  Or.inr (by rw [E'.com]; exact ⟨Nat.cast_nonneg _, Nat.cast_nonneg _⟩)

include hz hu in
/-- D of two coadds is a linear function of the pixels of all exposures. -/
theorem epochs_eq (i j : ℕ) : (epochsOf env ⟨false, false, it⟩ lt lt' d e a a' procs procs' ref new u).px i j =
    ∑ c, ∑ p ∈ range h, ∑ q ∈ range w, ((u c).px p q : ℂ) *
      impulseResp h w (gainEpochs d e h w ref new (z.2 / z.1) c) i j p q := by
  obtain ⟨sh, _⟩ := coadd_real_hat lt E.some d h w a procs E.shape E.workers E.workers' E.workers'' ψ E.real A B E.centred
    (fun m => u (.inl m)) fun m => hu _
  obtain ⟨sh', _⟩ := coadd_real_hat lt' E'.some e h w a' procs' E'.shape E'.workers E'.workers' E'.workers'' ψ' E'.real A' B'
    E'.centred (fun m => u (.inr m)) fun m => hu _
  unfold epochsOf
  rw [diffOf_eq env it ref new h w z E.mask E'.mask hz (Epoch.fitted env E') E.imShape E'.imShape _ _ sh sh',
    E.part (fun m => u (.inl m)) (fun m => hu _), E'.part (fun m => u (.inr m)) (fun m => hu _), Fintype.sum_sum_type, add_comm]
  rfl

include hz hu in
theorem respEpochs_eq (c : Fin n ⊕ Fin n') (i j p q : ℕ) (hp : p < h) (hq : q < w) :
    respEpochs env ⟨false, false, it⟩ lt lt' d e a a' procs procs' ref new u c i j p q =
      impulseResp h w (gainEpochs d e h w ref new (z.2 / z.1) c) i j p q := by
  unfold respEpochs
  rw [epochs_eq env it E E' z hz (fun c' => if c' = c then bump (u c') p q 1 else u c')
    (by intro c'; by_cases k : c' = c <;> simp only [k, if_true, if_false] <;> first | exact hu c | exact hu c'),
    epochs_eq env it E E' z hz u hu, ← Finset.sum_sub_distrib, Finset.sum_eq_single c]
  · simp only [if_true]
    rw [sum_bump h w _ p q hp hq]
    ring
  · intro c' _ hc'
    simp only [if_neg hc', sub_self]
  · intro k
    exact absurd (Finset.mem_univ c) k

include hh hw hb in
theorem epochs_ratio : z.2 / z.1 ≠ 0 := by
  rw [hb]
  exact div_ne_zero (Real.sqrt_pos.2 (E'.pos 0 0 (by omega) (by omega))).ne'
    (Real.sqrt_pos.2 (E.pos 0 0 (by omega) (by omega))).ne'

include hz hu hh hw hb in
/-- C196: the noise of all exposures makes the noise of D white, of variance one. -/
theorem epochs_noise_white (i j i' j' : ℕ) (hi : i < h) (hj : j < w) (hi' : i' < h) (hj' : j' < w) :
    ∑ c, ((epochsSigma d e c ^ 2 : ℝ) : ℂ) * ∑ p ∈ range h, ∑ q ∈ range w,
      respEpochs env ⟨false, false, it⟩ lt lt' d e a a' procs procs' ref new u c i j p q *
        (starRingEnd ℂ) (respEpochs env ⟨false, false, it⟩ lt lt' d e a a' procs procs' ref new u c i' j' p q) =
      if i = i' ∧ j = j' then 1 else 0 := by
  have r := fun c i j p hp q hq => respEpochs_eq env it E E' z hz u hu c i j p q hp hq
  rw [← white_of_power (Finset.univ : Finset (Fin n ⊕ Fin n')) h w (fun c => epochsSigma d e c ^ 2)
    (fun c => gainEpochs d e h w ref new (z.2 / z.1) c) 1 ?_ i j i' j' hi hj hi' hj']
  · refine Finset.sum_congr rfl fun c _ => ?_
    congr 1
    refine Finset.sum_congr rfl fun p hp => Finset.sum_congr rfl fun q hq => ?_
    rw [r c i j p (mem_range.1 hp) q (mem_range.1 hq), r c i' j' p (mem_range.1 hp) q (mem_range.1 hq)]
  · intro k hk l hl
    have b0 := epochs_ratio E E' hh hw z hb
    have gp := gain_power ref new (z.2 / z.1) 0 0 k l (Or.inr ⟨E.var_ne hh hw, b0⟩)
    have g : ∑ c, epochsSigma d e c ^ 2 * normSq (gainEpochs d e h w ref new (z.2 / z.1) c k l) = 1 := by
      rw [Fintype.sum_sum_type]
      simp only [epochsSigma, gainEpochs, Sum.elim_inl, Sum.elim_inr, normSq_mul]
      rw [← gp, ← E.white k l hk hl, ← E'.white k l hk hl, Finset.sum_mul, Finset.sum_mul, add_comm]
      congr 1 <;> exact Finset.sum_congr rfl fun m _ => by ring
    exact_mod_cast g

/-- The statistic does not respond to stars that do not change. -/
def IgnoresStill (h w : ℕ) {n n' : ℕ} (d : Fin n → SinglePsf) (e : Fin n' → SinglePsf) (ψ : Fin n → Img ℝ) (A B : Fin n → ℤ)
    (ψ' : Fin n' → Img ℝ) (A' B' : Fin n' → ℤ) (g : Fin n ⊕ Fin n' → ℕ → ℕ → ℂ) : Prop :=
  ∀ X Y : ℤ, linResp h w g (epochsStar h w d e ψ A B ψ' A' B' 1 X Y) = 0

omit E E' in
theorem star_flux (hh : h ≠ 0) (hw : w ≠ 0) (psf : Img ℝ) (U V X Y : ℤ) (c q : ℝ) (k l : ℕ) :
    (fftOrtho (toC (skyStar h w psf U V X Y (c * q)))).px k l = c * (fftOrtho (toC (skyStar h w psf U V X Y q))).px k l := by
  rw [fftOrtho_skyStar h w hh hw, fftOrtho_skyStar h w hh hw]
  push_cast
  ring

include hz hu hh hw in
/-- What a star does to D: the star through the two PSF images that `coadd` returned. -/
theorem epochs_star (c : ℝ) (X Y : ℤ) (i j : ℕ) :
    ∑ m, ∑ p ∈ range h, ∑ q ∈ range w, ((epochsStar h w d e ψ A B ψ' A' B' c X Y m).px p q : ℂ) *
        respEpochs env ⟨false, false, it⟩ lt lt' d e a a' procs procs' ref new u m i j p q =
      (ifftOrtho ⟨h, w, fun k l =>
        gainRef ref new (z.2 / z.1) 0 0 k l * (c * (((Real.sqrt (powerAt d 0 0) : ℝ) : ℂ) *
          (fftOrtho (toC (skyStar h w ref.psf a a X Y 1))).px k l)) +
        gainNew ref new (z.2 / z.1) k l * (((Real.sqrt (powerAt e 0 0) : ℝ) : ℂ) *
          (fftOrtho (toC (skyStar h w new.psf a' a' X Y 1))).px k l)⟩).px i j := by
  have f : ∀ (m : Fin n ⊕ Fin n') (s : Img ℝ), s.h = h → s.w = w →
      ∑ p ∈ range h, ∑ q ∈ range w, (s.px p q : ℂ) *
          respEpochs env ⟨false, false, it⟩ lt lt' d e a a' procs procs' ref new u m i j p q =
        (ifftOrtho ⟨h, w, fun k l => gainEpochs d e h w ref new (z.2 / z.1) m k l * (fftOrtho (toC s)).px k l⟩).px i j := by
    intro m s h1 h2
    rw [Finset.sum_congr rfl fun p hp => Finset.sum_congr rfl fun q hq => by
      rw [respEpochs_eq env it E E' z hz u hu m i j p q (mem_range.1 hp) (mem_range.1 hq)]]
    subst h1 h2
    exact (filter_eq (toC s) _ i j).symm
  rw [Fintype.sum_sum_type]
  simp only [epochsStar, Sum.elim_inl, Sum.elim_inr, f _ (skyStar _ _ _ _ _ _ _ _) rfl rfl]
  rw [← ifftOrtho_sum, ← ifftOrtho_sum, ← ifftOrtho_add]
  refine ifftOrtho_congr h w _ _ (fun k hk l hl => ?_) i j
  rw [← E.star hh hw X Y k l hk hl, ← E'.star hh hw X Y k l hk hl, Finset.mul_sum, Finset.mul_sum, Finset.mul_sum]
  simp only [gainEpochs, Sum.elim_inl, Sum.elim_inr, star_flux hh hw]
  congr 1
  · exact Finset.sum_congr rfl fun m _ => by ring
  · exact Finset.sum_congr rfl fun m _ => by ring

omit hz hu in
include hb in
/-- The two flux scales are the zero points: `diffInfo` of the coadds is that of all exposures. -/
theorem epochs_info : powerAt e 0 0 * ∑ k ∈ range h, ∑ l ∈ range w,
    normSq (ref.psfHat.px k l) * normSq (new.psfHat.px k l) / normReal ref new (z.2 / z.1) k l = epochsInfo d e h w := by
  unfold epochsInfo
  rw [Finset.mul_sum]
  refine Finset.sum_congr rfl fun k hk => ?_
  rw [Finset.mul_sum]
  refine Finset.sum_congr rfl fun l hl => ?_
  have hk := mem_range.1 hk
  have hl := mem_range.1 hl
  have p0 := E.pos 0 0 (by omega) (by omega)
  have q0 := E'.pos 0 0 (by omega) (by omega)
  have p := E.pos k l hk hl
  have q := E'.pos k l hk hl
  have N0 : (0 : ℝ) < ((h * w : ℕ) : ℝ) := by exact_mod_cast Nat.mul_pos (by omega) (by omega)
  rw [diff_term, E.normSq k l hk hl, E'.normSq k l hk hl, hb, E.var, E'.var, div_pow, div_pow, Real.sq_sqrt p0.le,
    Real.sq_sqrt q0.le, one_pow, Real.sq_sqrt N0.le]
  generalize powerAt d 0 0 = P0 at *
  generalize powerAt e 0 0 = Q0 at *
  generalize powerAt d k l = P at *
  generalize powerAt e k l = Q at *
  generalize ((h * w : ℕ) : ℝ) = N at *
  have e1 : 1 / N / (Q / Q0 / N) + Q0 / P0 * (1 / N) / (P / P0 / N) = Q0 * (1 / P + 1 / Q) := by
    field_simp
    ring
  rw [e1, mul_inv, ← mul_assoc, mul_inv_cancel₀ q0.ne', one_mul]

omit hz hu in
include hh hw in
/-- C196: no linear statistic of all pixels of all exposures that ignores unchanged stars has, for a star that only the new exposures
show, a larger ratio of response to noise than this. -/
theorem epochs_bound (g : Fin n ⊕ Fin n' → ℕ → ℕ → ℂ) (hg : IgnoresStill h w d e ψ A B ψ' A' B' g) (X Y : ℤ) :
    normSq (linResp h w g (epochsStar h w d e ψ A B ψ' A' B' 0 X Y)) ≤ linNoise h w (epochsSigma d e) g * epochsInfo d e h w := by
  have hat : ∀ (c : ℝ) (X Y : ℤ), linResp h w g (epochsStar h w d e ψ A B ψ' A' B' c X Y) = ∑ k ∈ range h, ∑ l ∈ range w,
      (c * (∑ m, (d m).zp * (d m).psfHat.px k l * shiftPhase h w (((-A m : ℤ) : ℝ), ((-B m : ℤ) : ℝ)) k l *
          (starRingEnd ℂ) (weightHat h w (g (.inl m)) k l)) +
        ∑ m, (e m).zp * (e m).psfHat.px k l * shiftPhase h w (((-A' m : ℤ) : ℝ), ((-B' m : ℤ) : ℝ)) k l *
          (starRingEnd ℂ) (weightHat h w (g (.inr m)) k l)) * shiftPhase h w ((X : ℝ), (Y : ℝ)) k l := by
    intro c X Y
    unfold linResp
    rw [Fintype.sum_sum_type]
    simp only [epochsStar, Sum.elim_inl, Sum.elim_inr, weighted_hat h w _ (skyStar _ _ _ _ _ _ _ _) ⟨rfl, rfl⟩]
    rw [Finset.sum_comm (s := univ), Finset.sum_comm (s := univ), ← Finset.sum_add_distrib]
    refine Finset.sum_congr rfl fun k _ => ?_
    rw [Finset.sum_comm (s := univ), Finset.sum_comm (s := univ), ← Finset.sum_add_distrib]
    refine Finset.sum_congr rfl fun l _ => ?_
    have hpsf : ∀ m, (fftOrtho (padTo h w (toC (ψ m)))).px k l = (d m).psfHat.px k l := by
      intro m
      unfold SinglePsf.psfHat
      rw [(E.shape m).1, (E.shape m).2.1, E.real m]
    have hpsf' : ∀ m, (fftOrtho (padTo h w (toC (ψ' m)))).px k l = (e m).psfHat.px k l := by
      intro m
      unfold SinglePsf.psfHat
      rw [(E'.shape m).1, (E'.shape m).2.1, E'.real m]
    have sp : ∀ U V : ℤ, shiftPhase h w (((X - U : ℤ) : ℝ), ((Y - V : ℤ) : ℝ)) k l =
        shiftPhase h w (((-U : ℤ) : ℝ), ((-V : ℤ) : ℝ)) k l * shiftPhase h w ((X : ℝ), (Y : ℝ)) k l := by
      intro U V
      rw [← shiftPhase_add]
      congr 2 <;> push_cast <;> ring
    simp only [fftOrtho_skyStar h w hh hw, hpsf, hpsf', sp]
    rw [add_mul, Finset.mul_sum, Finset.sum_mul, Finset.sum_mul]
    unfold weightHat
    push_cast
    congr 1
    · exact Finset.sum_congr rfl fun m _ => by ring
    · exact Finset.sum_congr rfl fun m _ => by ring
  have bal : ∀ k < h, ∀ l < w,
      (∑ m, (d m).zp * (d m).psfHat.px k l * shiftPhase h w (((-A m : ℤ) : ℝ), ((-B m : ℤ) : ℝ)) k l *
          (starRingEnd ℂ) (weightHat h w (g (.inl m)) k l)) +
        ∑ m, (e m).zp * (e m).psfHat.px k l * shiftPhase h w (((-A' m : ℤ) : ℝ), ((-B' m : ℤ) : ℝ)) k l *
          (starRingEnd ℂ) (weightHat h w (g (.inr m)) k l) = 0 := by
    intro k hk l hl
    refine dft_injective h w (fun k l =>
      (∑ m, (d m).zp * (d m).psfHat.px k l * shiftPhase h w (((-A m : ℤ) : ℝ), ((-B m : ℤ) : ℝ)) k l *
          (starRingEnd ℂ) (weightHat h w (g (.inl m)) k l)) +
        ∑ m, (e m).zp * (e m).psfHat.px k l * shiftPhase h w (((-A' m : ℤ) : ℝ), ((-B' m : ℤ) : ℝ)) k l *
          (starRingEnd ℂ) (weightHat h w (g (.inr m)) k l)) ?_ k l hk hl
    intro X _ Y _
    have t := hg X Y
    rw [hat] at t
    change ∑ k ∈ range h, ∑ l ∈ range w, _ * (tw h ((X : ℝ) * k) * tw w ((Y : ℝ) * l)) = 0
    rw [← t]
    refine Finset.sum_congr rfl fun k _ => Finset.sum_congr rfl fun l _ => ?_
    have i0 := shiftPhase_int h w hh hw (X : ℤ) (Y : ℤ) k l
    rw [mul_comm (k : ℝ), mul_comm (l : ℝ), Int.cast_natCast, Int.cast_natCast] at i0
    rw [Int.cast_natCast, Int.cast_natCast, i0, ofReal_one, one_mul]
  have noise : linNoise h w (epochsSigma d e) g = ∑ c ∈ range h ×ˢ range w,
      ((∑ m, (d m).var ^ 2 * normSq (weightHat h w (g (.inl m)) c.1 c.2)) +
        ∑ m, (e m).var ^ 2 * normSq (weightHat h w (g (.inr m)) c.1 c.2)) := by
    have p : ∀ q : ℕ → ℕ → ℂ, ∑ c ∈ range h ×ˢ range w, normSq (weightHat h w q c.1 c.2) =
        ∑ a ∈ range h, ∑ b ∈ range w, normSq (q a b) := by
      intro q
      rw [Finset.sum_product]
      unfold weightHat
      rw [fftOrtho_power]
      simp only [normSq_conj]
    rw [Finset.sum_add_distrib, Finset.sum_comm (t := univ), Finset.sum_comm (t := univ)]
    simp only [← Finset.mul_sum, p]
    unfold linNoise
    rw [Fintype.sum_sum_type]
    simp only [epochsSigma, Sum.elim_inl, Sum.elim_inr, Finset.mul_sum]
  have info : epochsInfo d e h w = ∑ c ∈ range h ×ˢ range w, (1 / powerAt d c.1 c.2 + 1 / powerAt e c.1 c.2)⁻¹ := by
    rw [Finset.sum_product]
    rfl
  rw [noise, hat, info, ← Finset.sum_product (s := range h) (t := range w)
    (f := fun c => (((0 : ℝ) : ℂ) * (∑ m, (d m).zp * (d m).psfHat.px c.1 c.2 *
          shiftPhase h w (((-A m : ℤ) : ℝ), ((-B m : ℤ) : ℝ)) c.1 c.2 * (starRingEnd ℂ) (weightHat h w (g (.inl m)) c.1 c.2)) +
        ∑ m, (e m).zp * (e m).psfHat.px c.1 c.2 * shiftPhase h w (((-A' m : ℤ) : ℝ), ((-B' m : ℤ) : ℝ)) c.1 c.2 *
          (starRingEnd ℂ) (weightHat h w (g (.inr m)) c.1 c.2)) * shiftPhase h w ((X : ℝ), (Y : ℝ)) c.1 c.2)]
  have cs : ∀ {r : ℕ} (x : Fin r → SinglePsf) (U V : Fin r → ℤ) (G : Fin r → ℂ) (k l : ℕ), (∀ m, (x m).var ≠ 0) →
      normSq (∑ m, (x m).zp * (x m).psfHat.px k l * shiftPhase h w (((-U m : ℤ) : ℝ), ((-V m : ℤ) : ℝ)) k l *
          (starRingEnd ℂ) (G m)) ≤ (∑ m, (x m).var ^ 2 * normSq (G m)) * powerAt x k l := by
    intro r x U V G k l hv
    refine response_bound univ _ _ _ (fun m _ => mul_nonneg (sq_nonneg _) (normSq_nonneg _))
      (fun m _ => mul_nonneg (by positivity) (normSq_nonneg _)) (fun m _ => ?_)
    simp only [normSq_mul, normSq_shiftPhase, normSq_conj, normSq_ofReal, mul_one]
    have := hv m
    refine le_of_eq ?_
    field_simp
  refine response_bound _ _ _ _ (fun c _ => ?_) (fun c hc => ?_) (fun c hc => ?_)
  · exact add_nonneg (Finset.sum_nonneg fun m _ => mul_nonneg (sq_nonneg _) (normSq_nonneg _))
      (Finset.sum_nonneg fun m _ => mul_nonneg (sq_nonneg _) (normSq_nonneg _))
  · rw [Finset.mem_product] at hc
    have p := E.pos c.1 c.2 (mem_range.1 hc.1) (mem_range.1 hc.2)
    have q := E'.pos c.1 c.2 (mem_range.1 hc.1) (mem_range.1 hc.2)
    positivity
  · rw [Finset.mem_product] at hc
    have p := E.pos c.1 c.2 (mem_range.1 hc.1) (mem_range.1 hc.2)
    have q := E'.pos c.1 c.2 (mem_range.1 hc.1) (mem_range.1 hc.2)
    have c1 := cs d A B (fun m => weightHat h w (g (.inl m)) c.1 c.2) c.1 c.2 E.noise
    have c2 := cs e A' B' (fun m => weightHat h w (g (.inr m)) c.1 c.2) c.1 c.2 E'.noise
    have b1 := bal c.1 (mem_range.1 hc.1) c.2 (mem_range.1 hc.2)
    rw [eq_neg_of_add_eq_zero_left b1, normSq_neg] at c1
    rw [ofReal_zero, zero_mul, zero_add, normSq_mul, normSq_shiftPhase, mul_one]
    generalize normSq (∑ m, (e m).zp * (e m).psfHat.px c.1 c.2 *
      shiftPhase h w (((-A' m : ℤ) : ℝ), ((-B' m : ℤ) : ℝ)) c.1 c.2 *
        (starRingEnd ℂ) (weightHat h w (g (.inr m)) c.1 c.2)) = r at c1 c2 ⊢
    rw [← div_eq_mul_inv, le_div_iff₀ (by positivity), mul_add]
    rw [← div_le_iff₀ p] at c1
    rw [← div_le_iff₀ q] at c2
    rw [mul_one_div, mul_one_div]
    linarith

include hz hu hh hw hb in
/-- C196: subtracting one coadd from another loses nothing. Sum D against the PSF image that `subtract` returns, centred on a star at
`(X, Y)`. This statistic ignores stars that do not change, and reaches the bound of `epochs_bound`. -/
theorem epochs_optimal (X Y : ℤ) : ∃ sub, subtract env ⟨false, false, it⟩ ref new = .ok sub ∧
    ∀ T, T = pixelWeights h w
        (fun i j => (sub.P.px (((i : ℤ) - (X - a' - a)) % h).toNat (((j : ℤ) - (Y - a' - a)) % w).toNat : ℂ))
        (respEpochs env ⟨false, false, it⟩ lt lt' d e a a' procs procs' ref new u) →
      IgnoresStill h w d e ψ A B ψ' A' B' T ∧ 0 < linNoise h w (epochsSigma d e) T ∧
      normSq (linResp h w T (epochsStar h w d e ψ A B ψ' A' B' 0 X Y)) =
        linNoise h w (epochsSigma d e) T * epochsInfo d e h w := by
  have b0 := epochs_ratio E E' hh hw z hb
  have rv0 := E.var_ne hh hw
  obtain ⟨sub, es, k⟩ := subtract_snr env it ref new h w z E.mask E'.mask hz (Epoch.fitted env E') E.imShape E'.imShape hh hw
    E.idle E'.idle a a a' a' (by rw [E.com, Int.cast_natCast]) (by rw [E'.com, Int.cast_natCast]) b0 (Or.inl rv0) X Y
  refine ⟨sub, es, fun T hT => ?_⟩
  obtain ⟨ign, pos, eq⟩ := k _ rfl
  set q : ℕ → ℕ → ℂ := fun i j => (sub.P.px (((i : ℤ) - (X - a' - a)) % h).toNat
    (((j : ℤ) - (Y - a' - a)) % w).toNat : ℂ) with hq
  have noise : linNoise h w (epochsSigma d e) T =
      linNoise h w (pairSigma ref new) (pixelWeights h w q (pairResp env ⟨false, false, it⟩ ref new)) := by
    rw [hT, linNoise_pixels h w (epochsSigma d e) q _ 1, linNoise_pixels h w (pairSigma ref new) q _ 1]
    · intro i hi j hj i' hi' j' hj'
      have wn := subtract_noise_white env it ref new h w z E.mask E'.mask hz (Epoch.fitted env E') E.imShape E'.imShape
        (Or.inr ⟨rv0, b0⟩) i j i' j' hi hj hi' hj'
      rw [Complex.ofReal_one, ← wn, Fintype.sum_bool]
      unfold pairSigma pairResp
      simp only [if_true, Bool.false_eq_true, if_false, Finset.sum_add_distrib, ← Finset.mul_sum]
    · intro i hi j hj i' hi' j' hj'
      rw [Complex.ofReal_one]
      exact epochs_noise_white env it E E' hh hw z hz hb u hu i j i' j' hi hj hi' hj'
  have pairStar : ∀ (cr cn : ℝ) (U V : ℤ) (i j : ℕ), ∑ m, ∑ p ∈ range h, ∑ r ∈ range w,
      (((if m then skyStar h w new.psf a' a' U V cn else skyStar h w ref.psf a a U V cr : Img ℝ).px p r : ℝ) : ℂ) *
        pairResp env ⟨false, false, it⟩ ref new m i j p r =
      (ifftOrtho ⟨h, w, fun k l => gainRef ref new (z.2 / z.1) 0 0 k l * (fftOrtho (toC (skyStar h w ref.psf a a U V cr))).px k l +
        gainNew ref new (z.2 / z.1) k l * (fftOrtho (toC (skyStar h w new.psf a' a' U V cn))).px k l⟩).px i j := by
    intro cr cn U V i j
    have rp := fun p hp r hr => resp_eq env it ref new h w z E.mask E'.mask hz (Epoch.fitted env E') E.imShape E'.imShape i j p r
      hp hr
    rw [Fintype.sum_bool]
    simp only [pairResp, if_true, Bool.false_eq_true, if_false]
    rw [Finset.sum_congr rfl fun p hp => Finset.sum_congr rfl fun r hr => by
        rw [(rp p (mem_range.1 hp) r (mem_range.1 hr)).1],
      Finset.sum_congr (s₁ := range h) (f := fun p => ∑ r ∈ range w, ((skyStar h w ref.psf a a U V cr).px p r : ℂ) *
        respRef env ⟨false, false, it⟩ ref new i j p r) rfl fun p hp => Finset.sum_congr rfl fun r hr => by
        rw [(rp p (mem_range.1 hp) r (mem_range.1 hr)).2]]
    have f1 := filter_eq (toC (skyStar h w new.psf a' a' U V cn)) (gainNew ref new (z.2 / z.1)) i j
    have f2 := filter_eq (toC (skyStar h w ref.psf a a U V cr)) (gainRef ref new (z.2 / z.1) 0 0) i j
    rw [add_comm, ifftOrtho_add]
    exact congrArg₂ (· + ·) f2.symm f1.symm
  refine ⟨fun U V => ?_, by rw [noise]; exact pos, ?_⟩
  · have i0 := ign U V
    rw [hT, linResp_pixels]
    unfold IgnoresConstant at ign
    rw [linResp_pixels] at i0
    have s : ∀ i j, ∑ m, ∑ p ∈ range h, ∑ r ∈ range w, ((epochsStar h w d e ψ A B ψ' A' B' 1 U V m).px p r : ℂ) *
          respEpochs env ⟨false, false, it⟩ lt lt' d e a a' procs procs' ref new u m i j p r =
        ((Real.sqrt (powerAt d 0 0) : ℝ) : ℂ) * ∑ m, ∑ p ∈ range h, ∑ r ∈ range w,
          (((constantStar h w ref new (z.2 / z.1) a a a' a' U V m).px p r : ℝ) : ℂ) *
            pairResp env ⟨false, false, it⟩ ref new m i j p r := by
      intro i j
      have ps := pairStar 1 (z.2 / z.1) U V i j
      unfold constantStar
      rw [ps, epochs_star env it E E' hh hw z hz u hu 1 U V i j, ← ifftOrtho_const_mul]
      refine ifftOrtho_congr h w _ _ (fun k _ l _ => ?_) i j
      have sf := star_flux hh hw new.psf a' a' U V (z.2 / z.1) 1 k l
      rw [mul_one] at sf
      rw [sf, hb]
      have q0 : ((Real.sqrt (powerAt d 0 0) : ℝ) : ℂ) ≠ 0 := by
        exact_mod_cast (Real.sqrt_pos.2 (E.pos 0 0 (by omega) (by omega))).ne'
      push_cast
      field_simp
    simp only [s]
    rw [← mul_zero ((Real.sqrt (powerAt d 0 0) : ℝ) : ℂ), ← i0, Finset.mul_sum]
    refine Finset.sum_congr rfl fun i _ => ?_
    rw [Finset.mul_sum]
    exact Finset.sum_congr rfl fun j _ => by ring
  · have s : linResp h w T (epochsStar h w d e ψ A B ψ' A' B' 0 X Y) = ((Real.sqrt (powerAt e 0 0) : ℝ) : ℂ) *
        linResp h w (pixelWeights h w q (pairResp env ⟨false, false, it⟩ ref new)) (newStar h w new a' a' X Y) := by
      rw [hT, linResp_pixels, linResp_pixels, Finset.mul_sum]
      refine Finset.sum_congr rfl fun i _ => ?_
      rw [Finset.mul_sum]
      refine Finset.sum_congr rfl fun j _ => ?_
      rw [mul_left_comm]
      congr 1
      have ps := pairStar 0 1 X Y i j
      have z0 : ∀ p r, (skyStar h w ref.psf a a X Y 0).px p r = 0 := by
        intro p r
        simp [skyStar, starAt]
      have e0 : ∑ m, ∑ p ∈ range h, ∑ r ∈ range w, (((newStar h w new a' a' X Y m).px p r : ℝ) : ℂ) *
            pairResp env ⟨false, false, it⟩ ref new m i j p r =
          ∑ m, ∑ p ∈ range h, ∑ r ∈ range w,
            (((if m then skyStar h w new.psf a' a' X Y 1 else skyStar h w ref.psf a a X Y 0 : Img ℝ).px p r : ℝ) : ℂ) *
              pairResp env ⟨false, false, it⟩ ref new m i j p r := by
        rw [Fintype.sum_bool, Fintype.sum_bool]
        simp only [newStar, if_true, Bool.false_eq_true, if_false, z0]
      rw [e0, ps, epochs_star env it E E' hh hw z hz u hu 0 X Y i j, ← ifftOrtho_const_mul]
      refine ifftOrtho_congr h w _ _ (fun k _ l _ => ?_) i j
      have sf := star_flux hh hw ref.psf a a X Y 0 0 k l
      rw [mul_zero, ofReal_zero, zero_mul] at sf
      rw [sf, ofReal_zero]
      ring
    rw [s, normSq_mul, eq, normSq_ofReal, Real.mul_self_sqrt (E'.pos 0 0 (by omega) (by omega)).le, noise,
      ← epochs_info E E' z hb]
    ring

/-- The sky `t` as the exposures of a season show it: through their PSFs, in proportion to their zero points. -/
def seasonSky (h w : ℕ) {n : ℕ} (d : Fin n → SinglePsf) (ψ : Fin n → Img ℝ) (A B : Fin n → ℤ) (t : ℕ → ℕ → ℝ) (m : Fin n) : Img ℝ :=
  through h w (ψ m) (A m) (B m) fun X Y => (d m).zp * t X Y

omit E E' in
theorem season_stars (hh : h ≠ 0) (hw : w ≠ 0) (psf : Img ℝ) (U V : ℤ) (q : ℝ) (t : ℕ → ℕ → ℝ) (k l : ℕ) :
    (fftOrtho (toC (through h w psf U V fun X Y => q * t X Y))).px k l =
      ∑ X ∈ range h, ∑ Y ∈ range w, (t X Y : ℂ) * (fftOrtho (toC (skyStar h w psf U V X Y q))).px k l := by
  rw [fftOrtho_through h w hh hw, Finset.mul_sum]
  refine Finset.sum_congr rfl fun X _ => ?_
  rw [Finset.mul_sum]
  refine Finset.sum_congr rfl fun Y _ => ?_
  rw [fftOrtho_skyStar h w hh hw]
  push_cast
  ring

omit E' in
/-- A sky in a coadd: the sky through the PSF image that `coadd` returned, times the flux scale. -/
theorem Epoch.sky (hh : h ≠ 0) (hw : w ≠ 0) (t : ℕ → ℕ → ℝ) (k l : ℕ) (hk : k < h) (hl : l < w) :
    ∑ m, gainCoadd d h w m k l * (fftOrtho (toC (seasonSky h w d ψ A B t m))).px k l =
      (fftOrtho (toC (through h w ref.psf a a fun X Y => Real.sqrt (powerAt d 0 0) * t X Y))).px k l := by
  unfold seasonSky
  simp only [season_stars hh hw, Finset.mul_sum]
  rw [Finset.sum_comm]
  refine Finset.sum_congr rfl fun X _ => ?_
  rw [Finset.sum_comm]
  refine Finset.sum_congr rfl fun Y _ => ?_
  have q := E.star hh hw X Y k l hk hl
  have sf := star_flux hh hw ref.psf a a X Y (Real.sqrt (powerAt d 0 0)) 1 k l
  rw [mul_one] at sf
  rw [sf, ← q, Finset.mul_sum]
  exact Finset.sum_congr rfl fun m _ => by ring

include hz hu hh hw hb in
/-- C196: what changed in the sky between the seasons appears in D as seen through the PSF image that `subtract` returns. What did not
change leaves nothing. -/
theorem epochs_sky (t t' : ℕ → ℕ → ℝ) : ∃ sub, subtract env ⟨false, false, it⟩ ref new = .ok sub ∧ ∀ i < h, ∀ j < w,
    ((epochsOf env ⟨false, false, it⟩ lt lt' d e a a' procs procs' ref new fun c => plusImg (u c)
        (Sum.elim (seasonSky h w d ψ A B t) (seasonSky h w e ψ' A' B' t') c)).px i j).re =
      ((epochsOf env ⟨false, false, it⟩ lt lt' d e a a' procs procs' ref new u).px i j).re +
        Real.sqrt ((h * w : ℕ) * (1 / powerAt d 0 0 + 1 / powerAt e 0 0)⁻¹) * ∑ X ∈ range h, ∑ Y ∈ range w, (t' X Y - t X Y) *
          sub.P.px (((i : ℤ) - (X - a - a')) % h).toNat (((j : ℤ) - (Y - a - a')) % w).toNat := by
  obtain ⟨sub, es, _, hP, _⟩ := subtract_returns env it ref new h w E.imShape E'.imShape E.mask E'.mask z hz (Epoch.fitted env E')
  refine ⟨sub, es, fun i hi j hj => ?_⟩
  rw [epochs_eq env it E E' z hz (fun c => plusImg (u c) (Sum.elim (seasonSky h w d ψ A B t) (seasonSky h w e ψ' A' B' t') c))
    (fun c => hu c), epochs_eq env it E E' z hz u hu]
  have f : ∀ (g : ℕ → ℕ → ℂ) (s : Img ℝ), s.h = h → s.w = w →
      ∑ p ∈ range h, ∑ q ∈ range w, (s.px p q : ℂ) * impulseResp h w g i j p q =
        (ifftOrtho ⟨h, w, fun k l => g k l * (fftOrtho (toC s)).px k l⟩).px i j := by
    intro g s h1 h2
    subst h1 h2
    exact (filter_eq (toC s) g i j).symm
  have sp : ∀ (g : ℕ → ℕ → ℂ) (s v : Img ℝ),
      ∑ p ∈ range h, ∑ q ∈ range w, ((plusImg s v).px p q : ℂ) * impulseResp h w g i j p q =
        (∑ p ∈ range h, ∑ q ∈ range w, (s.px p q : ℂ) * impulseResp h w g i j p q) +
        ∑ p ∈ range h, ∑ q ∈ range w, (v.px p q : ℂ) * impulseResp h w g i j p q := by
    intro g s v
    simp only [plusImg, Complex.ofReal_add, add_mul, Finset.sum_add_distrib]
  simp only [sp]
  rw [Finset.sum_add_distrib, Complex.add_re]
  congr 1
  have b0 := epochs_ratio E E' hh hw z hb
  have rv0 := E.var_ne hh hw
  have key := sky_term ref new h w z E.imShape E'.imShape hh hw E.idle E'.idle a a a' a'
    (fun X Y => Real.sqrt (powerAt d 0 0) * t X Y) (fun X Y => Real.sqrt (powerAt e 0 0) * t' X Y)
    (by rw [E.com, Int.cast_natCast]) (by rw [E'.com, Int.cast_natCast]) b0 (Or.inl rv0) sub.P hP i j hi hj
  have lhs : ∑ c, ∑ p ∈ range h, ∑ q ∈ range w,
      ((Sum.elim (seasonSky h w d ψ A B t) (seasonSky h w e ψ' A' B' t') c).px p q : ℂ) *
        impulseResp h w (gainEpochs d e h w ref new (z.2 / z.1) c) i j p q =
      (ifftOrtho ⟨h, w, fun k l =>
        gainNew ref new (z.2 / z.1) k l *
          (fftOrtho (toC (through h w new.psf a' a' fun X Y => Real.sqrt (powerAt e 0 0) * t' X Y))).px k l +
        gainRef ref new (z.2 / z.1) 0 0 k l *
          (fftOrtho (toC (through h w ref.psf a a fun X Y => Real.sqrt (powerAt d 0 0) * t X Y))).px k l⟩).px i j := by
    rw [Fintype.sum_sum_type]
    simp only [Sum.elim_inl, Sum.elim_inr, f _ (seasonSky _ _ _ _ _ _ _ _) rfl rfl]
    rw [← ifftOrtho_sum, ← ifftOrtho_sum, ← ifftOrtho_add]
    refine ifftOrtho_congr h w _ _ (fun k hk l hl => ?_) i j
    rw [← E.sky hh hw t k l hk hl, ← E'.sky hh hw t' k l hk hl, Finset.mul_sum, Finset.mul_sum, add_comm]
    simp only [gainEpochs, Sum.elim_inl, Sum.elim_inr]
    congr 1
    · exact Finset.sum_congr rfl fun m _ => by ring
    · exact Finset.sum_congr rfl fun m _ => by ring
  rw [lhs, key, Finset.mul_sum, Finset.sum_div]
  have p0 := E.pos 0 0 (by omega) (by omega)
  have q0 := E'.pos 0 0 (by omega) (by omega)
  have N0 : (0 : ℝ) < ((h * w : ℕ) : ℝ) := by exact_mod_cast Nat.mul_pos (by omega) (by omega)
  have sc : Real.sqrt ((h * w : ℕ) * (1 / powerAt d 0 0 + 1 / powerAt e 0 0)⁻¹) =
      Real.sqrt (powerAt e 0 0) / Real.sqrt (ref.var ^ 2 * (z.2 / z.1) ^ 2 + new.var ^ 2) := by
    rw [← Real.sqrt_div q0.le, E.var, E'.var, hb, div_pow, div_pow, Real.sq_sqrt p0.le, Real.sq_sqrt q0.le, one_pow,
      Real.sq_sqrt N0.le]
    congr 1
    generalize powerAt d 0 0 = P0 at *
    generalize powerAt e 0 0 = Q0 at *
    generalize ((h * w : ℕ) : ℝ) = N at *
    have e1 : 1 / P0 + 1 / Q0 = (P0 + Q0) / (P0 * Q0) := by
      field_simp
      ring
    have e2 : 1 / N * (Q0 / P0) + 1 / N = (P0 + Q0) / (N * P0) := by
      field_simp
      ring
    rw [e1, e2, inv_div, div_div_eq_mul_div]
    ring
  refine Finset.sum_congr rfl fun X _ => ?_
  rw [Finset.mul_sum, Finset.sum_div]
  refine Finset.sum_congr rfl fun Y _ => ?_
  rw [sc, hb]
  have q1 : Real.sqrt (powerAt d 0 0) ≠ 0 := (Real.sqrt_pos.2 p0).ne'
  rw [← mul_assoc (Real.sqrt (powerAt e 0 0) / Real.sqrt (powerAt d 0 0)), div_mul_cancel₀ _ q1]
  ring

end

/-- C196: it is the same whichever season is called new, -/
theorem epochs_swap {n n' : ℕ} (d : Fin n → SinglePsf) (e : Fin n' → SinglePsf) (h w : ℕ) :
    epochsInfo e d h w = epochsInfo d e h w := by
  unfold epochsInfo
  simp only [add_comm]

/-- does not get smaller with further exposures in either season, -/
theorem epochs_more {n n' r r' : ℕ} (d : Fin n → SinglePsf) (e : Fin n' → SinglePsf) (s : Fin r → Fin n) (hs : Function.Injective s)
    (s' : Fin r' → Fin n') (hs' : Function.Injective s') (h w : ℕ) (hd : ∀ k < h, ∀ l < w, powerAt (d ∘ s) k l ≠ 0)
    (he : ∀ k < h, ∀ l < w, powerAt (e ∘ s') k l ≠ 0) : epochsInfo (d ∘ s) (e ∘ s') h w ≤ epochsInfo d e h w := by
  refine Finset.sum_le_sum fun k hk => Finset.sum_le_sum fun l hl => ?_
  have p := powerAt_pos (d ∘ s) h w hd k l (mem_range.1 hk) (mem_range.1 hl)
  have q := powerAt_pos (e ∘ s') h w he k l (mem_range.1 hk) (mem_range.1 hl)
  have p' := p.trans_le (powerAt_some d s hs k l)
  have q' := q.trans_le (powerAt_some e s' hs' k l)
  exact inv_anti₀ (by positivity) (add_le_add (one_div_le_one_div_of_le p (powerAt_some d s hs k l))
    (one_div_le_one_div_of_le q (powerAt_some e s' hs' k l)))

/-- is less than what either season would give if the other had no noise, -/
theorem epochs_less {n n' : ℕ} (d : Fin n → SinglePsf) (e : Fin n' → SinglePsf) (h w : ℕ) (hh : h ≠ 0) (hw : w ≠ 0)
    (hd : ∀ k < h, ∀ l < w, powerAt d k l ≠ 0) (he : ∀ k < h, ∀ l < w, powerAt e k l ≠ 0) :
    epochsInfo d e h w < min (∑ k ∈ range h, ∑ l ∈ range w, powerAt d k l) (∑ k ∈ range h, ∑ l ∈ range w, powerAt e k l) := by
  have r1 : (range h).Nonempty := Finset.nonempty_range_iff.2 hh
  have r2 : (range w).Nonempty := Finset.nonempty_range_iff.2 hw
  have key : ∀ P Q : ℝ, 0 < P → 0 < Q → (1 / P + 1 / Q)⁻¹ < P ∧ (1 / P + 1 / Q)⁻¹ < Q := by
    intro P Q p q
    have e1 : 1 / P + 1 / Q = (P + Q) / (P * Q) := by
      field_simp
      ring
    rw [e1, inv_div, div_lt_iff₀ (by positivity), div_lt_iff₀ (by positivity)]
    constructor <;> nlinarith [mul_pos p p, mul_pos q q]
  refine lt_min ?_ ?_ <;> refine Finset.sum_lt_sum_of_nonempty r1 fun k hk => Finset.sum_lt_sum_of_nonempty r2 fun l hl => ?_
  · exact (key _ _ (powerAt_pos d h w hd k l (mem_range.1 hk) (mem_range.1 hl))
      (powerAt_pos e h w he k l (mem_range.1 hk) (mem_range.1 hl))).1
  · exact (key _ _ (powerAt_pos d h w hd k l (mem_range.1 hk) (mem_range.1 hl))
      (powerAt_pos e h w he k l (mem_range.1 hk) (mem_range.1 hl))).2

/-- and with equal exposures it is in proportion to the product of their numbers over the sum. -/
theorem epochs_equal (x : SinglePsf) (n n' h w : ℕ) (hn : 0 < n) (hn' : 0 < n')
    (hx : ∀ k < h, ∀ l < w, powerAt (fun _ : Fin 1 => x) k l ≠ 0) :
    epochsInfo (fun _ : Fin n => x) (fun _ : Fin n' => x) h w =
      (n * n' : ℝ) / (n + n') * ∑ k ∈ range h, ∑ l ∈ range w, powerAt (fun _ : Fin 1 => x) k l := by
  unfold epochsInfo
  rw [Finset.mul_sum]
  refine Finset.sum_congr rfl fun k hk => ?_
  rw [Finset.mul_sum]
  refine Finset.sum_congr rfl fun l hl => ?_
  have p := powerAt_pos (fun _ : Fin 1 => x) h w hx k l (mem_range.1 hk) (mem_range.1 hl)
  rw [powerAt_copies, powerAt_copies x n']
  generalize powerAt (fun _ : Fin 1 => x) k l = P at p
  have a1 : (0 : ℝ) < n := by exact_mod_cast hn
  have a2 : (0 : ℝ) < n' := by exact_mod_cast hn'
  have e1 : 1 / (n * P) + 1 / (n' * P) = ((n : ℝ) + n') / (n * n' * P) := by
    field_simp
    ring
  rw [e1, inv_div]
  ring

/-- So a given number of equal exposures is best divided into equal halves. -/
theorem epochs_halves (x : SinglePsf) (n n' h w : ℕ) (hn : 0 < n) (hn' : 0 < n')
    (hx : ∀ k < h, ∀ l < w, powerAt (fun _ : Fin 1 => x) k l ≠ 0) :
    epochsInfo (fun _ : Fin n => x) (fun _ : Fin n' => x) h w ≤
      (n + n' : ℝ) / 4 * ∑ k ∈ range h, ∑ l ∈ range w, powerAt (fun _ : Fin 1 => x) k l := by
  rw [epochs_equal x n n' h w hn hn' hx]
  refine mul_le_mul_of_nonneg_right ?_ (Finset.sum_nonneg fun k _ => Finset.sum_nonneg fun l _ => powerAt_nonneg _ k l)
  have a1 : (0 : ℝ) < n := by exact_mod_cast hn
  have a2 : (0 : ℝ) < n' := by exact_mod_cast hn'
  rw [div_le_div_iff₀ (by positivity) (by norm_num)]
  nlinarith [sq_nonneg ((n : ℝ) - n')]

/-- The coadd of `demoNight` as an image to subtract, -/
theorem demoEpoch (lt : List CoImg → List CoImg → Option Bool) (out : CoaddOut)
    (e : coaddCore lt ((List.ofFn demoNight).map SinglePsf.toCoImg) 1 2 = .ok out) :
    Epoch lt demoNight 3 3 1 2 (fun _ => ⟨1, 1, fun _ _ => 1⟩) (fun _ => 0) (fun _ => 0)
      ⟨out.R.map re, none, out.R.map re, out.Pr.map re, 1 / Real.sqrt ((3 * 3 : ℕ) : ℝ)⟩ := by
  have hs : ∀ j, (demoNight j).interped.h = 3 ∧ (demoNight j).interped.w = 3 ∧ (demoNight j).mask.HasShape 3 3 :=
    fun _ => ⟨rfl, rfl, fun a q => by cases q⟩
  have hψ : ∀ m, (demoNight m).psf = toC ⟨1, 1, fun _ _ => 1⟩ := fun _ => by simp [demoNight, toC, Img.map]
  have hpow : ∀ k < 3, ∀ l < 3, powerAt demoNight k l ≠ 0 := fun k _ l _ => (demoNight_power k l).ne'
  obtain ⟨out2, e2, rh, rw0, _⟩ := coadd_returns_zackay lt (by norm_num) demoNight 3 3 1 2 hs (by norm_num) (by norm_num)
    (by norm_num)
  rw [e] at e2
  obtain rfl : out = out2 := by injection e2
  refine ⟨by norm_num, hs, by norm_num, by norm_num, by norm_num, hψ, fun _ => by simp [demoNight],
    fun _ => by norm_num [demoNight], hpow, congrArg₂ Prod.mk rh rw0, (fun a q => by cases q), ⟨out, e, rfl⟩, ?_, rfl, ?_⟩
  · exact coadd_psf_centred lt (by norm_num) demoNight 1 2 hs (by norm_num) (by norm_num) (by norm_num)
      (hpow 0 (by norm_num) 0 (by norm_num)) out e
  · exact coadd_guard_idle lt (by norm_num) demoNight 3 3 1 2 hs (by norm_num) (by norm_num) (by norm_num)
      (fun _ => ⟨1, 1, fun _ _ => 1⟩) hψ hpow out e (by norm_num) (by norm_num)

/-- subtracted from another coadd of the same kind: a new star at `(2, 0)` stands out as well as it can. -/
example (lt : List CoImg → List CoImg → Option Bool) (u : Fin 2 ⊕ Fin 2 → Img ℝ) (hu : ∀ c, (u c).h = 3 ∧ (u c).w = 3) :
    ∃ out, coaddCore lt ((List.ofFn demoNight).map SinglePsf.toCoImg) 1 2 = .ok out ∧
      ∀ im : SubImg, im = ⟨out.R.map re, none, out.R.map re, out.Pr.map re, 1 / Real.sqrt ((3 * 3 : ℕ) : ℝ)⟩ →
        ∃ sub, subtract (tinyEnv 1 1) ⟨false, false, true⟩ im im = .ok sub ∧
          ∀ T, T = pixelWeights 3 3
              (fun i j => (sub.P.px (((i : ℤ) - (2 - (1 : ℕ) - (1 : ℕ))) % (3 : ℕ)).toNat
                (((j : ℤ) - (0 - (1 : ℕ) - (1 : ℕ))) % (3 : ℕ)).toNat : ℂ))
              (respEpochs (tinyEnv 1 1) ⟨false, false, true⟩ lt lt demoNight demoNight 1 1 2 2 im im u) →
            0 < linNoise 3 3 (epochsSigma demoNight demoNight) T ∧
            0 < normSq (linResp 3 3 T (epochsStar 3 3 demoNight demoNight (fun _ => ⟨1, 1, fun _ _ => 1⟩) (fun _ => 0) (fun _ => 0)
              (fun _ => ⟨1, 1, fun _ _ => 1⟩) (fun _ => 0) (fun _ => 0) 0 2 0)) := by
  have hs : ∀ j, (demoNight j).interped.h = 3 ∧ (demoNight j).interped.w = 3 ∧ (demoNight j).mask.HasShape 3 3 :=
    fun _ => ⟨rfl, rfl, fun a q => by cases q⟩
  obtain ⟨out, e, _⟩ := coadd_returns_psf lt (by norm_num) demoNight 3 3 1 2 (by norm_num) (by norm_num) hs (by norm_num)
    (by norm_num) (by norm_num)
  refine ⟨out, e, fun im hi => ?_⟩
  have E := demoEpoch lt out e
  rw [← hi] at E
  have F0 := Real.sqrt_pos.2 (demoNight_power 0 0)
  obtain ⟨sub, es, k⟩ := epochs_optimal (tinyEnv 1 1) true E E (by norm_num) (by norm_num) (1, 1) rfl (by field_simp) u hu 2 0
  refine ⟨sub, es, fun T hT => ?_⟩
  obtain ⟨_, n0, q⟩ := k T hT
  refine ⟨n0, ?_⟩
  rw [q]
  refine mul_pos n0 (Finset.sum_pos (fun k _ => Finset.sum_pos (fun l _ => ?_) ⟨0, by simp⟩) ⟨0, by simp⟩)
  have := demoNight_power k l
  positivity

end PI
