import Verif.Props.GaussNoise

/-!
# Property C194: exposures with one PSF: what the coadd and the difference image are then, and when they are pixel by pixel
-/

namespace PI

open Complex Finset

/-! ## Filters that are a constant times another -/

theorem impulseResp_smul (h w : ℕ) (A U : ℕ → ℕ → ℂ) (c : ℂ) (hA : ∀ k < h, ∀ l < w, A k l = c * U k l) (i j a b : ℕ) :
    impulseResp h w A i j a b = c * impulseResp h w U i j a b := by
  unfold impulseResp
  rw [mul_div_assoc', Finset.mul_sum]
  congr 1
  refine Finset.sum_congr rfl fun k hk => ?_
  rw [Finset.mul_sum]
  refine Finset.sum_congr rfl fun l hl => ?_
  rw [hA k (mem_range.1 hk) l (mem_range.1 hl)]
  ring

theorem impulseResp_one (h w i j a b : ℕ) (hi : i < h) (hj : j < w) (ha : a < h) (hb : b < w) :
    impulseResp h w (fun _ _ => 1) i j a b = if i = a ∧ j = b then 1 else 0 := by
  have f := filter_eq ⟨h, w, fun i j => if i = a ∧ j = b then 1 else 0⟩ (fun _ _ => 1) i j
  simp only [one_mul] at f
  have g := ifftOrtho_fftOrtho ⟨h, w, fun i j => if i = a ∧ j = b then 1 else 0⟩ i j hi hj
  refine Eq.trans ?_ (f.symm.trans g)
  rw [Finset.sum_eq_single a, Finset.sum_eq_single b]
  · simp
  · intro y _ hy
    simp [hy]
  · intro hn
    exact absurd (mem_range.2 hb) hn
  · intro x _ hx
    exact Finset.sum_eq_zero fun y _ => by simp [hx]
  · intro hn
    exact absurd (mem_range.2 ha) hn

/-- A filter leaves all images as they are exactly if it leaves all frequencies as they are. -/
theorem filter_idle_iff (h w : ℕ) (U : ℕ → ℕ → ℂ) :
    (∀ s : ℕ → ℕ → ℝ, ∀ i < h, ∀ j < w,
      ∑ a ∈ range h, ∑ b ∈ range w, ((s a b : ℝ) : ℂ) * impulseResp h w U i j a b = ((s i j : ℝ) : ℂ)) ↔
    ∀ k < h, ∀ l < w, U k l = 1 := by
  constructor
  · intro H k hk l hl
    have hne : ((h * w : ℕ) : ℂ) ≠ 0 := by
      exact_mod_cast Nat.mul_ne_zero (Nat.ne_zero_of_lt hk) (Nat.ne_zero_of_lt hl)
    have e : ∀ a < h, ∀ b < w, impulseResp h w U 0 0 a b = impulseResp h w (fun _ _ => 1) 0 0 a b := by
      intro a ha b hb
      have k1 := H (fun i j => if i = a ∧ j = b then 1 else 0) 0 (Nat.zero_lt_of_lt hk) 0 (Nat.zero_lt_of_lt hl)
      rw [impulseResp_one h w 0 0 a b (Nat.zero_lt_of_lt hk) (Nat.zero_lt_of_lt hl) ha hb]
      rw [Finset.sum_eq_single a, Finset.sum_eq_single b] at k1
      · simp only [and_self, if_true, ofReal_one, one_mul] at k1
        rw [k1]
        split <;> simp
      · intro y _ hy
        simp [hy]
      · intro hn
        exact absurd (mem_range.2 hb) hn
      · intro x _ hx
        exact Finset.sum_eq_zero fun y _ => by simp [hx]
      · intro hn
        exact absurd (mem_range.2 ha) hn
    have z := dft_injective h w (fun k l => U k l - 1) (fun a ha b hb => by
      have q := e a ha b hb
      rw [impulseResp_dft, impulseResp_dft, div_left_inj' hne] at q
      simp only [Nat.cast_zero, mul_zero, neg_zero, tw_zero, mul_one] at q
      rw [← sub_eq_zero.2 q]
      change ∑ i ∈ range h, ∑ j ∈ range w, (U i j - 1) * _ =
        ∑ i ∈ range h, ∑ j ∈ range w, U i j * _ - ∑ i ∈ range h, ∑ j ∈ range w, 1 * _
      rw [← Finset.sum_sub_distrib]
      refine Finset.sum_congr rfl fun i _ => ?_
      rw [← Finset.sum_sub_distrib]
      exact Finset.sum_congr rfl fun j _ => sub_mul _ _ _) k l hk hl
    exact sub_eq_zero.1 z
  · intro H s i hi j hj
    have e : ∀ a ∈ range h, ∀ b ∈ range w, ((s a b : ℝ) : ℂ) * impulseResp h w U i j a b =
        if i = a ∧ j = b then ((s a b : ℝ) : ℂ) else 0 := by
      intro a ha b hb
      rw [impulseResp_smul h w U (fun _ _ => 1) 1 (fun k hk l hl => by rw [H k hk l hl, one_mul]), one_mul,
        impulseResp_one h w i j a b hi hj (mem_range.1 ha) (mem_range.1 hb), mul_ite, mul_one, mul_zero]
    rw [Finset.sum_congr rfl fun a ha => Finset.sum_congr rfl fun b hb => e a ha b hb, Finset.sum_eq_single i,
      Finset.sum_eq_single j]
    · simp
    · intro y _ hy
      rw [if_neg fun q => hy q.2.symm]
    · intro hn
      exact absurd (mem_range.2 hj) hn
    · intro x _ hx
      exact Finset.sum_eq_zero fun y _ => by rw [if_neg fun q => hx q.1.symm]
    · intro hn
      exact absurd (mem_range.2 hi) hn

/-- A number over its absolute value. -/
noncomputable def turnOf (z : ℂ) : ℂ := z / ((Real.sqrt (normSq z) : ℝ) : ℂ)

theorem turnOf_one_iff (z : ℂ) (hz : z ≠ 0) : turnOf z = 1 ↔ ∃ r : ℝ, 0 < r ∧ z = r := by
  have hp : 0 < Real.sqrt (normSq z) := Real.sqrt_pos.2 (normSq_pos.2 hz)
  have hne : ((Real.sqrt (normSq z) : ℝ) : ℂ) ≠ 0 := by exact_mod_cast hp.ne'
  unfold turnOf
  rw [div_eq_one_iff_eq hne]
  constructor
  · exact fun e => ⟨_, hp, e⟩
  · rintro ⟨r, hr, rfl⟩
    rw [normSq_ofReal, Real.sqrt_mul_self hr.le]

theorem normSq_turnOf (z : ℂ) (hz : z ≠ 0) : normSq (turnOf z) = 1 := by
  unfold turnOf
  rw [map_div₀, normSq_ofReal, Real.mul_self_sqrt (normSq_nonneg z), div_self (normSq_pos.2 hz).ne']

/-- The image `s`, every frequency of which is turned. -/
noncomputable def phaseTurned (h w : ℕ) (T : ℕ → ℕ → ℂ) (s : ℕ → ℕ → ℂ) : Img ℂ :=
  ifftOrtho ⟨h, w, fun k l => turnOf (T k l) * (fftOrtho ⟨h, w, s⟩).px k l⟩

theorem phaseTurned_eq (h w : ℕ) (T : ℕ → ℕ → ℂ) (s : ℕ → ℕ → ℂ) (i j : ℕ) :
    (phaseTurned h w T s).px i j =
      ∑ a ∈ range h, ∑ b ∈ range w, s a b * impulseResp h w (fun k l => turnOf (T k l)) i j a b :=
  filter_eq ⟨h, w, s⟩ (fun k l => turnOf (T k l)) i j

theorem phaseTurned_power (h w : ℕ) (T : ℕ → ℕ → ℂ) (hT : ∀ k < h, ∀ l < w, T k l ≠ 0) (s : ℕ → ℕ → ℂ) :
    ∑ i ∈ range h, ∑ j ∈ range w, normSq ((phaseTurned h w T s).px i j) = ∑ i ∈ range h, ∑ j ∈ range w, normSq (s i j) := by
  unfold phaseTurned
  rw [ifftOrtho_power, ← fftOrtho_power h w s]
  refine Finset.sum_congr rfl fun k hk => Finset.sum_congr rfl fun l hl => ?_
  rw [map_mul, normSq_turnOf _ (hT k (mem_range.1 hk) l (mem_range.1 hl)), one_mul]

/-! ## coadd -/

section
variable (lt : List CoImg → List CoImg → Option Bool) {n : ℕ} (hn : 0 < n)
    (d : Fin n → SinglePsf) (h w psfShape : ℕ) (procs : ℤ)
    (hs : ∀ j, (d j).interped.h = h ∧ (d j).interped.w = w ∧ (d j).mask.HasShape h w)
    (hp : procs ≤ n) (hp' : procs ≤ 2 ^ 25) (hb : procs * n ≤ 2 ^ 50)
    (psf : Img ℂ) (com : ℝ × ℝ) (hone : ∀ m, (d m).psf = psf ∧ (d m).com = com)
    (hv : ∀ m, (d m).var ≠ 0) (hz : ∃ m, (d m).zp ≠ 0)
    (h0 : ∀ k < h, ∀ l < w, (fftOrtho (padTo h w psf)).px k l ≠ 0)

/-- The exposures added up with the weights zp/var², in units of the noise of that sum over the root of the number of pixels. -/
noncomputable def stacked (x : Fin n → Img ℂ) (i j : ℕ) : ℂ :=
  (∑ m, (((d m).zp / (d m).var ^ 2 : ℝ) : ℂ) * (x m).px i j) /
    ((Real.sqrt (∑ m, (d m).zp ^ 2 / (d m).var ^ 2) * Real.sqrt ((h * w : ℕ) : ℝ) : ℝ) : ℂ)

/-- The transform of the PSF, moved to its centre, conjugate. -/
noncomputable def centredConj (psf : Img ℂ) (com : ℝ × ℝ) (k l : ℕ) : ℂ :=
  (starRingEnd ℂ) ((fftOrtho (padTo h w psf)).px k l) * shiftPhase h w com k l

include h0 in
theorem centredConj_ne (k : ℕ) (hk : k < h) (l : ℕ) (hl : l < w) : centredConj h w psf com k l ≠ 0 := by
  unfold centredConj
  refine mul_ne_zero ((map_ne_zero _).2 (h0 k hk l hl)) fun q => ?_
  have := normSq_shiftPhase h w com k l
  rw [q, map_zero] at this
  exact zero_ne_one this

include hone hs in
theorem gainCoadd_one (m : Fin n) (k l : ℕ) :
    gainCoadd d h w m k l = ((((d m).zp / (d m).var ^ 2 : ℝ) : ℂ) /
      ((Real.sqrt (∑ m, (d m).zp ^ 2 / (d m).var ^ 2) * Real.sqrt ((h * w : ℕ) : ℝ) : ℝ) : ℂ)) *
        turnOf (centredConj h w psf com k l) := by
  have hh : ∀ m, (d m).psfHat.px k l = (fftOrtho (padTo h w psf)).px k l := by
    intro m
    unfold SinglePsf.psfHat
    rw [(hs m).1, (hs m).2.1, (hone m).1]
  have hq : zackayPower (fun j => (d j).zp) (fun j => (d j).var) (fun j => (d j).psfHat.px k l) =
      (∑ m, (d m).zp ^ 2 / (d m).var ^ 2) * normSq ((fftOrtho (padTo h w psf)).px k l) := by
    unfold zackayPower
    rw [Finset.sum_mul]
    refine Finset.sum_congr rfl fun m _ => ?_
    beta_reduce
    rw [hh m]
  have hT : normSq (centredConj h w psf com k l) = normSq ((fftOrtho (padTo h w psf)).px k l) := by
    unfold centredConj
    rw [map_mul, normSq_conj, normSq_shiftPhase, mul_one]
  unfold gainCoadd turnOf
  rw [hq, hh m, (hone m).2, hT, Real.sqrt_mul (Finset.sum_nonneg fun m _ => by positivity)]
  unfold centredConj
  push_cast
  rw [div_mul_div_comm]
  congr 1
  · ring
  · ring

include hn hs hp hp' hb hone
/-- C194: the coadd of exposures with one PSF is their weighted sum, every frequency of which is turned by the phase of the PSF. -/
theorem coadd_one_psf (x : Fin n → Img ℂ) (hx : ∀ m, (x m).h = h ∧ (x m).w = w) (i j : ℕ) :
    (coaddOf lt d psfShape procs x).px i j = (phaseTurned h w (centredConj h w psf com) (stacked d h w x)).px i j := by
  rw [coaddOf_eq lt hn d h w psfShape procs hs hp hp' hb x hx, phaseTurned_eq, Finset.sum_comm]
  refine Finset.sum_congr rfl fun a _ => ?_
  rw [Finset.sum_comm]
  refine Finset.sum_congr rfl fun b _ => ?_
  unfold stacked
  rw [Finset.sum_div, Finset.sum_mul]
  refine Finset.sum_congr rfl fun m _ => ?_
  rw [impulseResp_smul h w _ _ _ fun k _ l _ => gainCoadd_one d h w hs psf com hone m k l]
  ring

include h0 in
/-- C194: so the two have the same sum of squares. -/
theorem coadd_one_psf_power (x : Fin n → Img ℂ) (hx : ∀ m, (x m).h = h ∧ (x m).w = w) :
    ∑ i ∈ range h, ∑ j ∈ range w, normSq ((coaddOf lt d psfShape procs x).px i j) =
      ∑ i ∈ range h, ∑ j ∈ range w, normSq (stacked d h w x i j) := by
  rw [← phaseTurned_power h w (centredConj h w psf com) (fun k hk l hl => centredConj_ne h w psf com h0 k hk l hl)
    (stacked d h w x)]
  exact Finset.sum_congr rfl fun i _ => Finset.sum_congr rfl fun j _ => by
    rw [coadd_one_psf lt hn d h w psfShape procs hs hp hp' hb psf com hone x hx]

include hv hz h0 in
/-- C194: the coadd is the weighted sum, pixel by pixel, whatever the exposures show, exactly if the PSF moved to its centre has
a positive transform. -/
theorem coadd_pixelwise_iff :
    (∀ x : Fin n → Img ℝ, (∀ m, (x m).h = h ∧ (x m).w = w) → ∀ i < h, ∀ j < w,
      (coaddOf lt d psfShape procs fun m => toC (x m)).px i j = stacked d h w (fun m => toC (x m)) i j) ↔
    ∀ k < h, ∀ l < w, ∃ r : ℝ, 0 < r ∧ centredConj h w psf com k l = r := by
  have hT : (∀ k < h, ∀ l < w, ∃ r : ℝ, 0 < r ∧ centredConj h w psf com k l = r) ↔
      ∀ k < h, ∀ l < w, turnOf (centredConj h w psf com k l) = 1 :=
    forall₂_congr fun k hk => forall₂_congr fun l hl => (turnOf_one_iff _ (centredConj_ne h w psf com h0 k hk l hl)).symm
  rw [hT, ← filter_idle_iff]
  have key : ∀ x : Fin n → Img ℝ, (∀ m, (x m).h = h ∧ (x m).w = w) → ∀ i j,
      (coaddOf lt d psfShape procs fun m => toC (x m)).px i j =
        ∑ a ∈ range h, ∑ b ∈ range w, stacked d h w (fun m => toC (x m)) a b *
          impulseResp h w (fun k l => turnOf (centredConj h w psf com k l)) i j a b := by
    intro x hx i j
    rw [coadd_one_psf lt hn d h w psfShape procs hs hp hp' hb psf com hone _ hx, phaseTurned_eq]
  have hreal : ∀ (x : Fin n → Img ℝ) a b, stacked d h w (fun m => toC (x m)) a b =
      (((∑ m, (d m).zp / (d m).var ^ 2 * (x m).px a b) /
        (Real.sqrt (∑ m, (d m).zp ^ 2 / (d m).var ^ 2) * Real.sqrt ((h * w : ℕ) : ℝ)) : ℝ) : ℂ) := by
    intro x a b
    unfold stacked toC Img.map
    push_cast
    rfl
  constructor
  · intro H s i hi j hj
    obtain ⟨m, hm⟩ := hz
    have hN : (0 : ℝ) < Real.sqrt ((h * w : ℕ) : ℝ) :=
      Real.sqrt_pos.2 (by exact_mod_cast Nat.mul_pos (Nat.zero_lt_of_lt hi) (Nat.zero_lt_of_lt hj))
    have hW : 0 < Real.sqrt (∑ m, (d m).zp ^ 2 / (d m).var ^ 2) := by
      refine Real.sqrt_pos.2 (Finset.sum_pos' (fun m _ => by positivity) ⟨m, mem_univ _, ?_⟩)
      have := hv m
      positivity
    let c : ℝ := (Real.sqrt (∑ m, (d m).zp ^ 2 / (d m).var ^ 2) * Real.sqrt ((h * w : ℕ) : ℝ)) * ((d m).var ^ 2 / (d m).zp)
    let x : Fin n → Img ℝ := fun m' => ⟨h, w, fun i j => if m' = m then c * s i j else 0⟩
    have hst : ∀ a b, stacked d h w (fun m => toC (x m)) a b = ((s a b : ℝ) : ℂ) := by
      intro a b
      rw [hreal]
      congr 1
      simp only [x, mul_ite, mul_zero]
      rw [Finset.sum_ite_eq' univ m, if_pos (mem_univ m)]
      have := hv m
      simp only [c]
      field_simp
    have := H x (fun m => ⟨rfl, rfl⟩) i hi j hj
    rw [key x fun m => ⟨rfl, rfl⟩] at this
    simp only [hst] at this
    exact this
  · intro H x hx i hi j hj
    rw [key x hx]
    simp only [hreal]
    exact H (fun a b => _) i hi j hj

end

/-! ## subtract -/

section
variable (env : SubEnv) (it : Bool) (ref new : SubImg) (h w : ℕ) (z : ℝ × ℝ)
    (hmr : ref.mask.HasShape h w) (hmn : new.mask.HasShape h w) (hz : env.zps = .ok z)
    (hc : env.fitted = true ∨ (0 ≤ (centerOfMass new.psf).1 ∧ 0 ≤ (centerOfMass new.psf).2))
    (hr0 : ref.interped.shape = (h, w)) (hn0 : new.interped.shape = (h, w))
    (hpsf : new.psf = ref.psf) (hv : new.var ^ 2 + (z.2 / z.1) ^ 2 * ref.var ^ 2 ≠ 0)

/-- The new exposure less the reference times the flux ratio, in units of the noise. -/
noncomputable def plainDiff (b : ℝ) (r n : Img ℝ) (i j : ℕ) : ℝ :=
  (n.px i j - b * r.px i j) / Real.sqrt (new.var ^ 2 + b ^ 2 * ref.var ^ 2)

include hpsf hr0 hn0 in
theorem gains_one (b : ℝ) (k l : ℕ) :
    gainNew ref new b k l = ((1 / Real.sqrt (new.var ^ 2 + b ^ 2 * ref.var ^ 2) : ℝ) : ℂ) * turnOf (centredPsf ref k l) ∧
    gainRef ref new b 0 0 k l =
      ((-b / Real.sqrt (new.var ^ 2 + b ^ 2 * ref.var ^ 2) : ℝ) : ℂ) * turnOf (centredPsf ref k l) := by
  have e1 : new.h = ref.h := (congrArg Prod.fst hn0).trans (congrArg Prod.fst hr0).symm
  have e2 : new.w = ref.w := (congrArg Prod.snd hn0).trans (congrArg Prod.snd hr0).symm
  have hh : new.psfHat = ref.psfHat := by
    unfold SubImg.psfHat
    rw [e1, e2, hpsf]
  have hcp : centredPsf new k l = centredPsf ref k l := by
    unfold centredPsf
    rw [hh, e1, e2, hpsf]
  have hN : normReal ref new b k l = (new.var ^ 2 + b ^ 2 * ref.var ^ 2) * normSq (centredPsf ref k l) := by
    unfold normReal
    rw [hh, normSq_centredPsf]
    ring
  have hsp : shiftPhase ref.h ref.w ((0 : ℝ), (0 : ℝ)) k l = 1 := by
    unfold shiftPhase
    simp [tw_zero]
  unfold gainNew gainRef turnOf
  rw [hcp, hN, hsp, Real.sqrt_mul (by positivity)]
  constructor
  · push_cast
    rw [div_mul_div_comm, one_mul]
  · push_cast
    rw [div_mul_div_comm]
    congr 1
    ring

include hmr hmn hz hc hr0 hn0 hpsf

/-- C194: the difference image of exposures with one PSF is their plain difference, every frequency of which is turned by the
phase of the PSF. -/
theorem diff_one_psf (r n : Img ℝ) (hr : r.shape = (h, w)) (hn : n.shape = (h, w)) (i j : ℕ) :
    (diffOf env ⟨false, false, it⟩ ref new r n).px i j =
      (phaseTurned h w (centredPsf ref) fun i j => ((plainDiff ref new (z.2 / z.1) r n i j : ℝ) : ℂ)).px i j := by
  rw [diffOf_eq env it ref new h w z hmr hmn hz hc hr0 hn0 r n hr hn, phaseTurned_eq, ← Finset.sum_add_distrib]
  refine Finset.sum_congr rfl fun a _ => ?_
  rw [← Finset.sum_add_distrib]
  refine Finset.sum_congr rfl fun b _ => ?_
  rw [impulseResp_smul h w _ _ _ fun k _ l _ => (gains_one ref new h w hr0 hn0 hpsf (z.2 / z.1) k l).1,
    impulseResp_smul h w _ _ _ fun k _ l _ => (gains_one ref new h w hr0 hn0 hpsf (z.2 / z.1) k l).2]
  unfold plainDiff
  push_cast
  ring

/-- C194: so the two have the same sum of squares. -/
theorem diff_one_psf_power (r n : Img ℝ) (hr : r.shape = (h, w)) (hn : n.shape = (h, w)) :
    ∑ i ∈ range h, ∑ j ∈ range w, normSq ((diffOf env ⟨false, false, it⟩ ref new r n).px i j) =
      ∑ i ∈ range h, ∑ j ∈ range w, plainDiff ref new (z.2 / z.1) r n i j ^ 2 := by
  have := phaseTurned_power h w (centredPsf ref) (fun k _ l _ => centredPsf_ne ref k l)
    fun i j => ((plainDiff ref new (z.2 / z.1) r n i j : ℝ) : ℂ)
  simp only [normSq_ofReal, ← sq] at this
  rw [← this]
  exact Finset.sum_congr rfl fun i _ => Finset.sum_congr rfl fun j _ => by
    rw [diff_one_psf env it ref new h w z hmr hmn hz hc hr0 hn0 hpsf r n hr hn]

include hv in
/-- C194: the difference image is the plain difference, pixel by pixel, whatever the exposures show, exactly if the PSF moved to
its centre has a positive transform. -/
theorem diff_pixelwise_iff :
    (∀ r n : Img ℝ, r.shape = (h, w) → n.shape = (h, w) → ∀ i < h, ∀ j < w,
      (diffOf env ⟨false, false, it⟩ ref new r n).px i j = ((plainDiff ref new (z.2 / z.1) r n i j : ℝ) : ℂ)) ↔
    ∀ k < h, ∀ l < w, ∃ r : ℝ, 0 < r ∧ centredPsf ref k l = r := by
  have hT : (∀ k < h, ∀ l < w, ∃ r : ℝ, 0 < r ∧ centredPsf ref k l = r) ↔
      ∀ k < h, ∀ l < w, turnOf (centredPsf ref k l) = 1 :=
    forall₂_congr fun k hk => forall₂_congr fun l hl => (turnOf_one_iff _ (centredPsf_ne ref k l)).symm
  rw [hT, ← filter_idle_iff]
  constructor
  · intro H s i hi j hj
    have hV : 0 < Real.sqrt (new.var ^ 2 + (z.2 / z.1) ^ 2 * ref.var ^ 2) :=
      Real.sqrt_pos.2 (lt_of_le_of_ne (by positivity) hv.symm)
    have e : ∀ a b, plainDiff ref new (z.2 / z.1) ⟨h, w, fun _ _ => 0⟩
        ⟨h, w, fun i j => Real.sqrt (new.var ^ 2 + (z.2 / z.1) ^ 2 * ref.var ^ 2) * s i j⟩ a b = s a b := by
      intro a b
      unfold plainDiff
      simp only [mul_zero, sub_zero]
      exact mul_div_cancel_left₀ _ hV.ne'
    have := H ⟨h, w, fun _ _ => 0⟩ ⟨h, w, fun i j => Real.sqrt (new.var ^ 2 + (z.2 / z.1) ^ 2 * ref.var ^ 2) * s i j⟩
      rfl rfl i hi j hj
    rw [diff_one_psf env it ref new h w z hmr hmn hz hc hr0 hn0 hpsf
      ⟨h, w, fun _ _ => 0⟩ ⟨h, w, fun i j => Real.sqrt (new.var ^ 2 + (z.2 / z.1) ^ 2 * ref.var ^ 2) * s i j⟩ rfl rfl,
      phaseTurned_eq] at this
    simp only [e] at this
    exact this
  · intro H r n hr hn i hi j hj
    rw [diff_one_psf env it ref new h w z hmr hmn hz hc hr0 hn0 hpsf r n hr hn, phaseTurned_eq]
    exact H (plainDiff ref new (z.2 / z.1) r n) i hi j hj

end

/-! ## A PSF of three pixels -/

/-- The PSF (a, 1 - 2a, a). -/
noncomputable def rowPsf (a : ℝ) : Img ℝ := ⟨1, 3, fun _ j => if j = 1 then 1 - 2 * a else a⟩

/-- A 1×3 exposure with that PSF and noise `s`. -/
noncomputable def rowSub (a s : ℝ) : SubImg where
  interped := ⟨1, 3, fun _ _ => 0⟩
  mask := none
  filled := ⟨1, 3, fun _ _ => 0⟩
  psf := rowPsf a
  var := s

theorem row_com (a : ℝ) : centerOfMass (rowPsf a) = (0, 1) := by
  unfold centerOfMass rsum rowPsf
  simp only [Finset.sum_range_succ, Finset.sum_range_zero]
  norm_num
  have e1 : a + (1 - 2 * a) + a = 1 := by ring
  rw [e1]

theorem row_centred (a s : ℝ) (ha : a ≠ 1 / 3) (k : ℕ) (hk : k < 1) (l : ℕ) (hl : l < 3) :
    centredPsf (rowSub a s) k l = (((if l = 0 then 1 else 1 - 3 * a) / Real.sqrt ((1 * 3 : ℕ) : ℝ) : ℝ) : ℂ) := by
  have hk0 : k = 0 := by omega
  subst hk0
  have e : (fftOrtho (padTo 1 3 (toC (rowPsf a)))).px 0 l =
      ((a : ℂ) + ((1 - 2 * a : ℝ) : ℂ) * tw 3 (l : ℝ) + (a : ℂ) * tw 3 ((2 * l : ℕ) : ℝ)) /
        (Real.sqrt ((1 * 3 : ℕ) : ℝ) : ℂ) := by
    change (∑ i ∈ range 1, ∑ j ∈ range 3, (if i < 1 ∧ j < 3 then ((if j = 1 then 1 - 2 * a else a : ℝ) : ℂ) else 0) *
      (tw 1 (((0 : ℕ) : ℝ) * i) * tw 3 ((l : ℝ) * j))) / (Real.sqrt ((1 * 3 : ℕ) : ℝ) : ℂ) = _
    congr 1
    simp only [Finset.sum_range_succ, Finset.sum_range_zero]
    norm_num [tw_zero]
    exact Or.inl (by rw [mul_comm (l : ℝ) 2])
  have hS : (0 : ℝ) < Real.sqrt ((1 * 3 : ℕ) : ℝ) := by positivity
  have re : ((fftOrtho (padTo 1 3 (toC (rowPsf a)))).px 0 l).re ≠ 0 := by
    rw [e, Complex.div_ofReal_re]
    refine div_ne_zero ?_ hS.ne'
    rw [Complex.add_re, Complex.add_re, Complex.re_ofReal_mul, Complex.re_ofReal_mul, Complex.ofReal_re]
    by_cases h0 : l = 0
    · subst h0
      norm_num [tw_zero]
      intro q
      linarith
    · rw [tw_three_re l (by omega), tw_three_re (2 * l) (by omega)]
      intro q
      exact ha (by linarith)
  have hp : (rowSub a s).psfHat.px 0 l = (fftOrtho (padTo 1 3 (toC (rowPsf a)))).px 0 l := by
    change guardHat _ = _
    unfold guardHat
    exact if_neg re
  have hph : shiftPhase 1 3 (negPair (0, 1)) 0 l = tw 3 (-(sfreq 3 l : ℝ)) := by
    unfold shiftPhase negPair
    simp [tw_zero]
  unfold centredPsf
  rw [hp, e]
  change _ * shiftPhase 1 3 (negPair (centerOfMass (rowPsf a))) 0 l = _
  rw [row_com, hph, ofReal_div, div_mul_eq_mul_div]
  congr 1
  have w2 : tw 3 (2 : ℝ) = tw 3 1 * tw 3 1 := by rw [← tw_add]; norm_num
  have w4 : tw 3 (4 : ℝ) = tw 3 1 := by
    have q := tw_period 3 (by norm_num) 1
    have : (4 : ℝ) = (3 : ℕ) * (1 : ℤ) + 1 := by norm_num
    rw [this, tw_add, q, one_mul]
  have w3 : tw 3 (1 : ℝ) * (tw 3 1 * tw 3 1) = 1 := by
    rw [← tw_add, ← tw_add]
    have q := tw_period 3 (by norm_num) 1
    have e3 : (1 : ℝ) + (1 + 1) = (3 : ℕ) * (1 : ℤ) := by norm_num
    rw [e3, q]
  have wm : tw 3 (-(1 : ℝ)) = tw 3 1 * tw 3 1 := by
    have q := tw_neg_mul 3 1
    calc tw 3 (-(1 : ℝ)) = (tw 3 1 * (tw 3 1 * tw 3 1)) * tw 3 (-(1 : ℝ)) := by rw [w3, one_mul]
      _ = (tw 3 1 * tw 3 (-(1 : ℝ))) * (tw 3 1 * tw 3 1) := by ring
      _ = _ := by rw [q, one_mul]
  have ws : 1 + tw 3 (1 : ℝ) + tw 3 1 * tw 3 1 = 0 := by
    have q := sum_tw 3 (by norm_num) 1
    simp only [Finset.sum_range_succ, Finset.sum_range_zero] at q
    norm_num [tw_zero] at q
    rw [w2] at q
    exact q
  rcases (by omega : l = 0 ∨ l = 1 ∨ l = 2) with rfl | rfl | rfl
  · simp [sfreq, tw_zero]
    ring
  · simp only [sfreq]
    norm_num [w2, wm]
    linear_combination (((1 : ℂ) - 2 * a) + a * tw 3 1) * w3 + (a : ℂ) * ws
  · simp only [sfreq]
    norm_num [w2, w4]
    linear_combination (((1 : ℂ) - 2 * a)) * w3 + (a : ℂ) * ws

/-- C194: as long as the middle pixel is the brightest, D is the plain difference. -/
theorem row_pixelwise (a : ℝ) (ha : a < 1 / 3) (s t : ℝ) (ht : t ≠ 0) (r n : Img ℝ) (hr : r.shape = (1, 3))
    (hn : n.shape = (1, 3)) (j : ℕ) (hj : j < 3) :
    (diffOf (tinyEnv 1 1) ⟨false, false, true⟩ (rowSub a s) (rowSub a t) r n).px 0 j =
      ((plainDiff (rowSub a s) (rowSub a t) (1 / 1) r n 0 j : ℝ) : ℂ) := by
  refine (diff_pixelwise_iff (tinyEnv 1 1) true (rowSub a s) (rowSub a t) 1 3 (1, 1) (by intro a h; cases h)
    (by intro a h; cases h) rfl (Or.inl rfl) rfl rfl rfl ?_).2 ?_ r n hr hn 0 (by norm_num) j hj
  · change t ^ 2 + (1 / 1 : ℝ) ^ 2 * s ^ 2 ≠ 0
    positivity
  · intro k hk l hl
    refine ⟨_, ?_, row_centred a s ha.ne k hk l hl⟩
    refine div_pos ?_ (by positivity)
    split
    · norm_num
    · linarith

/-- C194: as soon as the outer pixels are brighter than the middle one, a pixel of the exposures turns up in D with the opposite sign,
and twice as strong in both neighbours. -/
theorem row_hollow (a : ℝ) (ha : 1 / 3 < a) (s t : ℝ) (r n : Img ℝ) (hr : r.shape = (1, 3)) (hn : n.shape = (1, 3))
    (j : ℕ) (hj : j < 3) :
    (diffOf (tinyEnv 1 1) ⟨false, false, true⟩ (rowSub a s) (rowSub a t) r n).px 0 j =
      ((∑ b ∈ range 3, (if b = j then -1 / 3 else 2 / 3) * plainDiff (rowSub a s) (rowSub a t) (1 / 1) r n 0 b : ℝ) : ℂ) := by
  rw [diff_one_psf (tinyEnv 1 1) true (rowSub a s) (rowSub a t) 1 3 (1, 1) (by intro a h; cases h) (by intro a h; cases h)
    rfl (Or.inl rfl) rfl rfl rfl r n hr hn, phaseTurned_eq, Finset.sum_range_one]
  push_cast
  refine Finset.sum_congr rfl fun b hb => ?_
  have hb3 : b < 3 := mem_range.1 hb
  have hT : ∀ k < 1, ∀ l < 3, turnOf (centredPsf (rowSub a s) k l) = if l = 0 then 1 else -1 := by
    intro k hk l hl
    rw [row_centred a s ha.ne' k hk l hl]
    have hS : (0 : ℝ) < Real.sqrt ((1 * 3 : ℕ) : ℝ) := by positivity
    by_cases h0 : l = 0
    · rw [if_pos h0, if_pos h0]
      have hx : (0 : ℝ) < 1 / Real.sqrt ((1 * 3 : ℕ) : ℝ) := by positivity
      exact (turnOf_one_iff _ (by exact_mod_cast hx.ne')).2 ⟨_, hx, rfl⟩
    · rw [if_neg h0, if_neg h0]
      have hx : (1 - 3 * a) / Real.sqrt ((1 * 3 : ℕ) : ℝ) < 0 := div_neg_of_neg_of_pos (by linarith) hS
      unfold turnOf
      rw [normSq_ofReal, Real.sqrt_mul_self_eq_abs, abs_of_neg hx, ofReal_neg, div_neg, div_self (by exact_mod_cast hx.ne)]
  have hI : impulseResp 1 3 (fun k l => turnOf (centredPsf (rowSub a s) k l)) 0 j 0 b = if b = j then -1 / 3 else 2 / 3 := by
    have h1 : impulseResp 1 3 (fun k l => turnOf (centredPsf (rowSub a s) k l)) 0 j 0 b =
        2 * impulseResp 1 3 (fun _ l => if l = 0 then 1 else 0) 0 j 0 b - impulseResp 1 3 (fun _ _ => 1) 0 j 0 b := by
      unfold impulseResp
      rw [mul_div_assoc', ← sub_div, Finset.mul_sum, ← Finset.sum_sub_distrib]
      congr 1
      refine Finset.sum_congr rfl fun k hk => ?_
      rw [Finset.mul_sum, ← Finset.sum_sub_distrib]
      refine Finset.sum_congr rfl fun l hl => ?_
      beta_reduce
      rw [hT k (mem_range.1 hk) l (mem_range.1 hl)]
      split <;> ring
    have h2 : impulseResp 1 3 (fun _ l => if l = 0 then 1 else 0) 0 j 0 b = 1 / 3 := by
      unfold impulseResp
      simp [tw_zero]
    rw [h1, h2, impulseResp_one 1 3 0 j 0 b (by norm_num) hj (by norm_num) hb3]
    by_cases h0 : b = j
    · subst h0
      norm_num
    · rw [if_neg h0, if_neg fun q => h0 q.2.symm]
      norm_num
  rw [hI, mul_comm]
  split <;> push_cast <;> ring

/-- Two exposures of nine pixels with a PSF of one pixel: the coadd is pixel by pixel. -/
example (lt : List CoImg → List CoImg → Option Bool) (x : Fin 2 → Img ℝ) (hx : ∀ m, (x m).h = 3 ∧ (x m).w = 3) (i : ℕ)
    (hi : i < 3) (j : ℕ) (hj : j < 3) :
    (coaddOf lt demoNight 1 2 fun m => toC (x m)).px i j = stacked demoNight 3 3 (fun m => toC (x m)) i j := by
  have hd : ∀ k l, (fftOrtho (padTo 3 3 ⟨1, 1, fun _ _ => 1⟩)).px k l = (((Real.sqrt ((3 * 3 : ℕ) : ℝ))⁻¹ : ℝ) : ℂ) :=
    fun k l => psfHat_delta (demoNight 0) rfl k l (by simp [demoNight]) (by simp [demoNight])
  have hS : (0 : ℝ) < (Real.sqrt ((3 * 3 : ℕ) : ℝ))⁻¹ := by positivity
  refine (coadd_pixelwise_iff lt (by norm_num) demoNight 3 3 1 2 (fun _ => ⟨rfl, rfl, fun a q => by cases q⟩) (by norm_num)
    (by norm_num) (by norm_num) ⟨1, 1, fun _ _ => 1⟩ (0, 0) (fun _ => ⟨rfl, rfl⟩) (fun _ => by norm_num [demoNight])
    ⟨0, by norm_num [demoNight]⟩ (fun k _ l _ => by rw [hd]; exact_mod_cast hS.ne')).2 ?_ x hx i hi j hj
  intro k _ l _
  refine ⟨_, hS, ?_⟩
  unfold centredConj shiftPhase
  rw [hd, conj_ofReal]
  simp [tw_zero]

end PI
