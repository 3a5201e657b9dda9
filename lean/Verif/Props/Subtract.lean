import Verif.Model.Subtract
import Verif.Lemmas.FitSeen
import Verif.Props.CoaddMore
import Mathlib.Tactic.Linarith
import Mathlib.Tactic.FieldSimp

/-! # Properties C22–C29: `subtract` -/

namespace PI
open Complex Finset

/-! ## C22, C23: the switch table -/

/-- What scipy guarantees of a fit: the point has the dimension of the start and respects the
bounds. -/
structure OptContract (opt : Opt) : Prop where
  lsq_dim : ∀ cost x0 lo hi, (opt.lsq cost x0 lo hi).2.length = x0.length
  lsq_bounds : ∀ cost x0 lo hi, feasible x0 lo hi = true →
    ∀ (i : ℕ) (v l u : ℝ), (opt.lsq cost x0 lo hi).2[i]? = some v → lo[i]? = some l →
      hi[i]? = some u → l ≤ v ∧ v ≤ u
  scalar_bounds : ∀ cost lo hi, lo ≤ hi → lo ≤ (opt.scalar cost lo hi).2 ∧ (opt.scalar cost lo hi).2 ≤ hi

/-- The contract is satisfiable: optimisers that stay at the start. -/
theorem stayOpt_contract (ok : Bool) :
    OptContract ⟨fun _ x0 _ _ => (ok, x0), fun _ lo _ => (ok, lo)⟩ := by
  refine ⟨fun _ _ _ _ => rfl, ?_, fun _ lo hi h => ⟨le_rfl, h⟩⟩
  intro cost x0 lo hi hf i v l u h1 h2 h3
  simp only at h1
  rw [feasible, List.all_eq_true] at hf
  have h4 : (lo.zip hi)[i]? = some (l, u) := by
    rw [List.zip, List.getElem?_zipWith, h2, h3]
  have h5 : (List.zipWith (fun (v : ℝ) (p : ℝ × ℝ) => decide (p.1 ≤ v ∧ v ≤ p.2)) x0
      (lo.zip hi))[i]? = some (decide (l ≤ v ∧ v ≤ u)) := by
    rw [List.getElem?_zipWith, h1, h4]
  simpa using hf _ (List.mem_of_getElem? h5)

/-- Whether the least-squares optimiser is started from the zero-point ratio. -/
def startsFromRatio (o : SubOpts) : Bool := o.beta && (o.shift || !o.iterative)

theorem feasible1 (b : ℝ) : feasible [b] [1 / 10] [10] = true ↔ 1 / 10 ≤ b ∧ b ≤ 10 := by
  simp [feasible]

theorem feasible3 (b : ℝ) : feasible [b, 0, 0] [1 / 10, -9 / 10, -9 / 10] [10, 9 / 10, 9 / 10] = true
    ↔ 1 / 10 ≤ b ∧ b ≤ 10 := by
  simp only [feasible, List.zip_cons_cons, List.zip_nil_left, List.zipWith_cons_cons,
    List.zipWith_nil_left, List.all_cons, List.all_nil, id, Bool.and_true, Bool.and_eq_true,
    decide_eq_true_eq]
  constructor
  · exact fun h => h.1
  · exact fun h => ⟨h, by norm_num, by norm_num⟩

theorem feasible2 : feasible [0, 0] [-9 / 10, -9 / 10] [9 / 10, 9 / 10] = true := by
  simp only [feasible, List.zip_cons_cons, List.zip_nil_left, List.zipWith_cons_cons,
    List.zipWith_nil_left, List.all_cons, List.all_nil, id, Bool.and_true, Bool.and_eq_true,
    decide_eq_true_eq]
  norm_num

/-- The zero-point ratio is an admissible start of the fit, if one starts there. -/
def RatioOk (o : SubOpts) (zr zn : ℝ) : Prop := startsFromRatio o = true → 1 / 10 ≤ zn / zr ∧ zn / zr ≤ 10

/-- The least-squares fit has a pixel to look at: with `shift` an unmasked one at least 100 pixels away from every edge,
otherwise (if there is such a fit) any unmasked one. -/
def FitSees (o : SubOpts) (mask : NMask) (h w : ℕ) : Prop :=
  (o.shift = true → ∃ i j : ℕ, 100 ≤ i ∧ i + 100 < h ∧ 100 ≤ j ∧ j + 100 < w ∧ mask.marks i j = false) ∧
  (o.beta = true → o.shift = false → o.iterative = false → ∃ i < h, ∃ j < w, mask.marks i j = false)

/-- C23: the choice of scale and shift raises ValueError exactly if a least-squares fit has to start from a zero-point ratio
outside of [0.1, 10] or has no pixel to look at. -/
theorem subtract_ratio_raises_iff (opt : Opt) (ho : OptContract opt) (o : SubOpts)
    (gamma : Img ℝ) (mask : NMask) (ref new : SubImg) (zr zn : ℝ) :
    (¬ (RatioOk o zr zn ∧ FitSees o mask ref.h ref.w) →
      scaleShift opt o gamma mask ref new zr zn = .error .ValueError) ∧
    (RatioOk o zr zn ∧ FitSees o mask ref.h ref.w →
      ∃ s, scaleShift opt o gamma mask ref new zr zn = .ok s) := by
  obtain ⟨beta, shift, iterative⟩ := o
  have three : ∀ l : List ℝ, l.length = 3 → ∃ a b c, l = [a, b, c] := by
    intro l hl
    match l, hl with
    | [a, b, c], _ => exact ⟨a, b, c, rfl⟩
  have two : ∀ l : List ℝ, l.length = 2 → ∃ a b, l = [a, b] := by
    intro l hl
    match l, hl with
    | [a, b], _ => exact ⟨a, b, rfl⟩
  have one : ∀ l : List ℝ, l.length = 1 → ∃ a, l = [a] := by
    intro l hl
    match l, hl with
    | [a], _ => exact ⟨a, rfl⟩
  have band : ∀ a b : Bool, (a && b) = false ↔ ¬ (a = true ∧ b = true) := by decide
  constructor
  · intro hbad
    cases beta <;> cases shift
    · exact absurd ⟨fun h => by simp [startsFromRatio] at h, fun h => by simp at h, fun h => by simp at h⟩ hbad
    · have : (feasible [0, 0] [-9 / 10, -9 / 10] [9 / 10, 9 / 10] && windowSeen mask ref.h ref.w) = false := by
        rw [band, windowSeen_iff]
        rintro ⟨-, h⟩
        exact hbad ⟨fun h => by simp [startsFromRatio] at h, fun _ => h, fun h => by simp at h⟩
      simp only [scaleShift, leastSquares, this]
      rfl
    · cases iterative
      · have : (feasible [zn / zr] [1 / 10] [10] && imageSeen mask ref.h ref.w) = false := by
          rw [band, imageSeen_iff, feasible1]
          rintro ⟨h1, h2⟩
          exact hbad ⟨fun _ => h1, fun h => by simp at h, fun _ _ _ => h2⟩
        simp only [scaleShift, leastSquares, this]
        rfl
      · exact absurd ⟨fun h => by simp [startsFromRatio] at h, fun h => by simp at h, fun _ _ h => by simp at h⟩ hbad
    · have : (feasible [zn / zr, 0, 0] [1 / 10, -9 / 10, -9 / 10] [10, 9 / 10, 9 / 10] &&
          windowSeen mask ref.h ref.w) = false := by
        rw [band, windowSeen_iff, feasible3]
        rintro ⟨h1, h2⟩
        exact hbad ⟨fun _ => h1, fun _ => h2, fun _ h => by simp at h⟩
      simp only [scaleShift, leastSquares, this]
      rfl
  · rintro ⟨hb, hs1, hs2⟩
    cases beta <;> cases shift
    · exact ⟨_, rfl⟩
    · have hw := (windowSeen_iff mask ref.h ref.w).2 (hs1 rfl)
      simp only [scaleShift, leastSquares, feasible2, hw, Bool.and_self, if_true, Bool.false_eq_true, if_false]
      obtain ⟨a, b, ha⟩ := two _ (ho.lsq_dim (costShift gamma mask ref new (zn / zr)) [0, 0] [-9 / 10, -9 / 10] [9 / 10, 9 / 10])
      simp only [bind, Except.bind, ha]
      split <;> exact ⟨_, rfl⟩
    · cases iterative
      · have hf := (feasible1 _).2 (hb rfl)
        have hw := (imageSeen_iff mask ref.h ref.w).2 (hs2 rfl rfl rfl)
        simp only [scaleShift, leastSquares, hf, hw, Bool.and_self, if_true, Bool.false_eq_true, if_false]
        obtain ⟨a, ha⟩ := one _ (ho.lsq_dim (costScale gamma mask ref new) [zn / zr] [1 / 10] [10])
        simp only [bind, Except.bind, ha]
        split <;> exact ⟨_, rfl⟩
      · simp only [scaleShift, if_true, Bool.false_eq_true, if_false]
        split <;> exact ⟨_, rfl⟩
    · have hf := (feasible3 _).2 (hb rfl)
      have hw := (windowSeen_iff mask ref.h ref.w).2 (hs1 rfl)
      simp only [scaleShift, leastSquares, hf, hw, Bool.and_self, if_true]
      obtain ⟨a, b, c, ha⟩ := three _ (ho.lsq_dim (costScaleShift gamma mask ref new) [zn / zr, 0, 0] [1 / 10, -9 / 10, -9 / 10] [10, 9 / 10, 9 / 10])
      simp only [bind, Except.bind, ha]
      split <;> exact ⟨_, rfl⟩

/-- C23: so with `shift=True` an image that is not more than 200 pixels high and wide cannot be subtracted. -/
theorem subtract_small_images (env : SubEnv) (ho : OptContract env.opt) (beta iterative : Bool) (ref new : SubImg)
    (hsmall : ref.h ≤ 200 ∨ ref.w ≤ 200) : ∃ e, subtract env ⟨beta, true, iterative⟩ ref new = .error e := by
  unfold subtract
  split
  · exact ⟨_, rfl⟩
  · rcases new.mask.maskOr ref.mask with e | mask
    · exact ⟨e, rfl⟩
    · rcases env.zps with e | zps
      · exact ⟨e, rfl⟩
      · simp only [bind, Except.bind]
        split
        · exact ⟨_, rfl⟩
        · rw [(subtract_ratio_raises_iff env.opt ho ⟨beta, true, iterative⟩ env.gamma mask ref new zps.1 zps.2).1]
          · exact ⟨_, rfl⟩
          · rintro ⟨-, h, -⟩
            obtain ⟨i, j, h1, h2, h3, h4, -⟩ := h rfl
            omega

/-- C23: the default call on images with proper shapes, masks and photometry fails with ValueError if they are small. -/
theorem subtract_small_ValueError (env : SubEnv) (ho : OptContract env.opt) (beta iterative : Bool) (ref new : SubImg)
    (hsmall : ref.h ≤ 200 ∨ ref.w ≤ 200) (mask : NMask) (hm : new.mask.maskOr ref.mask = .ok mask) (zps : ℝ × ℝ)
    (hz : env.zps = .ok zps) : subtract env ⟨beta, true, iterative⟩ ref new = .error .ValueError := by
  unfold subtract
  rw [hm, hz]
  split
  · rfl
  · simp only [bind, Except.bind]
    split
    · rfl
    · rw [(subtract_ratio_raises_iff env.opt ho ⟨beta, true, iterative⟩ env.gamma mask ref new zps.1 zps.2).1]
      rintro ⟨-, h, -⟩
      obtain ⟨i, j, h1, h2, h3, h4, -⟩ := h rfl
      omega

/-- An image of 201 × 201 pixels without mask has just one pixel to look at. -/
example (beta iterative : Bool) : FitSees ⟨beta, true, iterative⟩ none 201 201 :=
  ⟨fun _ => ⟨100, 100, by omega, by omega, by omega, by omega, rfl⟩, fun _ h => by simp at h⟩

/-- C22: the switch table. beta=False uses the zero-point ratio; shift=False gives no shift;
whenever a result is produced the shift is within ±0.9, and the scale is either the ratio or within
[0.1, 10]. -/
theorem subtract_switch_table (opt : Opt) (ho : OptContract opt) (o : SubOpts)
    (gamma : Img ℝ) (mask : NMask) (ref new : SubImg) (zr zn : ℝ) (s : ℝ × ℝ × ℝ)
    (hs : scaleShift opt o gamma mask ref new zr zn = .ok s) :
    (o.beta = false → s.1 = zn / zr) ∧ (o.shift = false → s.2 = (0, 0)) ∧
      |s.2.1| ≤ 9 / 10 ∧ |s.2.2| ≤ 9 / 10 ∧ (s.1 = zn / zr ∨ (1 / 10 ≤ s.1 ∧ s.1 ≤ 10)) := by
  obtain ⟨beta, shift, iterative⟩ := o
  have habs : ∀ x : ℝ, -9 / 10 ≤ x → x ≤ 9 / 10 → |x| ≤ 9 / 10 :=
    fun x h1 h2 => abs_le.2 ⟨by linarith, h2⟩
  have z9 : |(0 : ℝ)| ≤ 9 / 10 := by norm_num
  cases beta with
  | true =>
    cases shift with
    | true =>
      simp only [scaleShift, leastSquares, if_true] at hs
      split at hs
      · rename_i hfeas
        rw [Bool.and_eq_true] at hfeas
        simp only [bind, Except.bind] at hs
        split at hs
        · split at hs
          · rename_i b' dx dy heq
            have hb := ho.lsq_bounds (costScaleShift gamma mask ref new) [zn / zr, 0, 0]
              [1 / 10, -9 / 10, -9 / 10] [10, 9 / 10, 9 / 10] hfeas.1
            have h0 := hb 0 b' _ _ (by rw [heq]; rfl) rfl rfl
            have h1 := hb 1 dx _ _ (by rw [heq]; rfl) rfl rfl
            have h2 := hb 2 dy _ _ (by rw [heq]; rfl) rfl rfl
            obtain rfl := (Except.ok.inj hs).symm
            exact ⟨by simp, by simp, habs _ h1.1 h1.2, habs _ h2.1 h2.2, Or.inr h0⟩
          · exact absurd hs (by simp)
        · obtain rfl := (Except.ok.inj hs).symm
          exact ⟨by simp, by simp, z9, z9, Or.inl rfl⟩
      · exact absurd hs (by simp [bind, Except.bind])
    | false =>
      cases iterative with
      | true =>
        simp only [scaleShift, if_true, Bool.false_eq_true, if_false] at hs
        split at hs
        · obtain rfl := (Except.ok.inj hs).symm
          exact ⟨by simp, by simp, z9, z9, Or.inr (ho.scalar_bounds _ _ _ (by norm_num))⟩
        · obtain rfl := (Except.ok.inj hs).symm
          exact ⟨by simp, by simp, z9, z9, Or.inl rfl⟩
      | false =>
        simp only [scaleShift, leastSquares, if_true, Bool.false_eq_true, if_false] at hs
        split at hs
        · rename_i hfeas
          rw [Bool.and_eq_true] at hfeas
          simp only [bind, Except.bind] at hs
          split at hs
          · split at hs
            · rename_i b' heq
              have h0 := ho.lsq_bounds (costScale gamma mask ref new) [zn / zr] [1 / 10] [10] hfeas.1 0 b' _ _ (by rw [heq]; rfl) rfl rfl
              obtain rfl := (Except.ok.inj hs).symm
              exact ⟨by simp, by simp, z9, z9, Or.inr h0⟩
            · exact absurd hs (by simp)
          · obtain rfl := (Except.ok.inj hs).symm
            exact ⟨by simp, by simp, z9, z9, Or.inl rfl⟩
        · exact absurd hs (by simp [bind, Except.bind])
  | false =>
    cases shift with
    | true =>
      simp only [scaleShift, leastSquares, if_true, Bool.false_eq_true, if_false] at hs
      split at hs
      · simp only [bind, Except.bind] at hs
        split at hs
        · split at hs
          · rename_i dx dy heq
            have hb := ho.lsq_bounds (costShift gamma mask ref new (zn / zr)) [0, 0] [-9 / 10, -9 / 10] [9 / 10, 9 / 10] feasible2
            have h1 := hb 0 dx _ _ (by rw [heq]; rfl) rfl rfl
            have h2 := hb 1 dy _ _ (by rw [heq]; rfl) rfl rfl
            obtain rfl := (Except.ok.inj hs).symm
            exact ⟨by simp, by simp, habs _ h1.1 h1.2, habs _ h2.1 h2.2, Or.inl rfl⟩
          · exact absurd hs (by simp)
        · obtain rfl := (Except.ok.inj hs).symm
          exact ⟨by simp, by simp, z9, z9, Or.inl rfl⟩
      · exact absurd hs (by simp [bind, Except.bind])
    | false =>
      simp only [scaleShift, Bool.false_eq_true, if_false] at hs
      obtain rfl := (Except.ok.inj hs).symm
      exact ⟨by simp, by simp, z9, z9, Or.inl rfl⟩

/-- C22: `iterative` matters only for beta=True, shift=False. -/
theorem subtract_iterative_irrelevant (opt : Opt) (beta shift i i' : Bool)
    (h : ¬ (beta = true ∧ shift = false)) (gamma : Img ℝ) (mask : NMask) (ref new : SubImg)
    (zr zn : ℝ) :
    scaleShift opt ⟨beta, shift, i⟩ gamma mask ref new zr zn =
      scaleShift opt ⟨beta, shift, i'⟩ gamma mask ref new zr zn := by
  cases beta <;> cases shift <;> simp at h <;> rfl

/-- C22: an unsuccessful fit falls back to the zero-point ratio and no shift. -/
theorem subtract_unsuccessful_fit (opt : Opt) (o : SubOpts) (gamma : Img ℝ) (mask : NMask)
    (ref new : SubImg) (zr zn : ℝ) (s : ℝ × ℝ × ℝ)
    (h1 : ∀ c x0 lo hi, (opt.lsq c x0 lo hi).1 = false) (h2 : ∀ c lo hi, (opt.scalar c lo hi).1 = false)
    (hs : scaleShift opt o gamma mask ref new zr zn = .ok s) : s = (zn / zr, 0, 0) := by
  obtain ⟨beta, shift, iterative⟩ := o
  cases beta <;> cases shift <;> cases iterative <;>
    simp only [scaleShift, leastSquares, if_true, Bool.false_eq_true, if_false, bind, Except.bind,
      h2] at hs
  all_goals first
    | exact (Except.ok.inj hs).symm
    | (split at hs
       · exact absurd hs (by simp)
       · rename_i heq
         split at heq
         · obtain rfl := Except.ok.inj heq
           rw [h1] at hs
           exact (Except.ok.inj hs).symm
         · exact absurd heq (by simp))

/-- C22: a successful fit is used: scale and shift are the point the optimiser returned, for the cost, start and bounds of
the switches. -/
theorem subtract_fit_used (opt : Opt) (o : SubOpts) (gamma : Img ℝ) (mask : NMask)
    (ref new : SubImg) (zr zn : ℝ) (s : ℝ × ℝ × ℝ)
    (h1 : ∀ c x0 lo hi, (opt.lsq c x0 lo hi).1 = true) (h2 : ∀ c lo hi, (opt.scalar c lo hi).1 = true)
    (hs : scaleShift opt o gamma mask ref new zr zn = .ok s) :
    (o.beta = true → o.shift = true → [s.1, s.2.1, s.2.2] = (opt.lsq (costScaleShift gamma mask ref new) [zn / zr, 0, 0]
      [1 / 10, -9 / 10, -9 / 10] [10, 9 / 10, 9 / 10]).2) ∧
    (o.beta = true → o.shift = false → o.iterative = true →
      s.1 = (opt.scalar (scaleCost gamma mask ref new) (1 / 10) 10).2) ∧
    (o.beta = true → o.shift = false → o.iterative = false →
      [s.1] = (opt.lsq (costScale gamma mask ref new) [zn / zr] [1 / 10] [10]).2) ∧
    (o.beta = false → o.shift = true → [s.2.1, s.2.2] = (opt.lsq (costShift gamma mask ref new (zn / zr)) [0, 0]
      [-9 / 10, -9 / 10] [9 / 10, 9 / 10]).2) := by
  obtain ⟨beta, shift, iterative⟩ := o
  cases beta <;> cases shift <;> cases iterative <;>
    simp only [scaleShift, leastSquares, if_true, Bool.false_eq_true, if_false, bind, Except.bind,
      h2] at hs
  all_goals first
    | (obtain rfl := (Except.ok.inj hs).symm; simp)
    | (split at hs
       · exact absurd hs (by simp)
       · rename_i heq
         split at heq
         · obtain rfl := Except.ok.inj heq
           rw [h1, if_pos rfl] at hs
           split at hs
           · rename_i hl
             obtain rfl := (Except.ok.inj hs).symm
             refine ⟨?_, ?_, ?_, ?_⟩ <;> intros <;> first | exact hl.symm | simp_all
           · exact absurd hs (by simp)
         · exact absurd heq (by simp))

/-- C22: a successful fit of the scale gives one between 0.1 and 10. -/
theorem subtract_fit_bounds (opt : Opt) (ho : OptContract opt) (o : SubOpts) (gamma : Img ℝ) (mask : NMask)
    (ref new : SubImg) (zr zn : ℝ) (s : ℝ × ℝ × ℝ) (hb : o.beta = true)
    (h1 : ∀ c x0 lo hi, (opt.lsq c x0 lo hi).1 = true) (h2 : ∀ c lo hi, (opt.scalar c lo hi).1 = true)
    (hs : scaleShift opt o gamma mask ref new zr zn = .ok s) : 1 / 10 ≤ s.1 ∧ s.1 ≤ 10 := by
  obtain ⟨k1, k2, k3, -⟩ := subtract_fit_used opt o gamma mask ref new zr zn s h1 h2 hs
  cases hsh : o.shift with
  | true =>
    have hf : feasible [zn / zr, 0, 0] [1 / 10, -9 / 10, -9 / 10] [10, 9 / 10, 9 / 10] = true := by
      by_contra hf
      rw [Bool.not_eq_true] at hf
      unfold scaleShift leastSquares at hs
      simp only [hb, hsh, if_true, hf, Bool.false_and, Bool.false_eq_true, if_false, bind, Except.bind] at hs
      exact absurd hs (by simp)
    exact ho.lsq_bounds _ _ _ _ hf 0 s.1 _ _ (by rw [← k1 hb hsh]; rfl) rfl rfl
  | false =>
    cases hit : o.iterative with
    | true => rw [k2 hb hsh hit]; exact ho.scalar_bounds _ _ _ (by norm_num)
    | false =>
      have hf : feasible [zn / zr] [1 / 10] [10] = true := by
        by_contra hf
        rw [Bool.not_eq_true] at hf
        unfold scaleShift leastSquares at hs
        simp only [hb, hsh, hit, if_true, hf, Bool.false_and, Bool.false_eq_true, if_false, bind, Except.bind] at hs
        exact absurd hs (by simp)
      exact ho.lsq_bounds _ _ _ _ hf 0 s.1 _ _ (by rw [← k3 hb hsh hit]; rfl) rfl rfl

/-! ## C27 -/

theorem epsR_pos : 0 < epsR := by unfold epsR; positivity

theorem guardHat_ne_zero (z : ℂ) : guardHat z ≠ 0 := by
  unfold guardHat
  split
  · exact_mod_cast epsR_pos.ne'
  · intro h
    rename_i hz
    exact hz (by rw [h]; rfl)

theorem psfHat_ne_zero (d : SubImg) (k l : ℕ) : d.psfHat.px k l ≠ 0 := guardHat_ne_zero _

/-- The noise norm is the real number of Zackay's formula. -/
noncomputable def normReal (ref new : SubImg) (b : ℝ) (k l : ℕ) : ℝ :=
  new.var ^ 2 * normSq (ref.psfHat.px k l) + b ^ 2 * ref.var ^ 2 * normSq (new.psfHat.px k l)

theorem normHat_eq (ref new : SubImg) (b : ℝ) (k l : ℕ) :
    normHat ref new b k l = (normReal ref new b k l : ℂ) := by
  unfold normHat normReal
  rw [mul_assoc ((new.var : ℂ) ^ 2), mul_assoc ((ref.var : ℂ) ^ 2), Complex.mul_conj,
    Complex.mul_conj]
  push_cast
  ring

/-- C27: after the guard no PSF coefficient vanishes, and the noise norm is a strictly positive
real at every frequency if the new image's noise is non-zero, or the reference's is and the scale
is not zero. -/
theorem subtract_norm_pos (ref new : SubImg) (b : ℝ) (k l : ℕ)
    (h : new.var ≠ 0 ∨ (ref.var ≠ 0 ∧ b ≠ 0)) :
    ref.psfHat.px k l ≠ 0 ∧ new.psfHat.px k l ≠ 0 ∧
      ∃ r : ℝ, 0 < r ∧ normHat ref new b k l = (r : ℂ) := by
  refine ⟨psfHat_ne_zero _ _ _, psfHat_ne_zero _ _ _, _, ?_, normHat_eq ref new b k l⟩
  have hr := normSq_pos.2 (psfHat_ne_zero ref k l)
  have hn := normSq_pos.2 (psfHat_ne_zero new k l)
  unfold normReal
  rcases h with h | ⟨h1, h2⟩
  · have : 0 < new.var ^ 2 := by positivity
    have h3 := mul_pos this hr
    have h4 : 0 ≤ b ^ 2 * ref.var ^ 2 * normSq (new.psfHat.px k l) := by positivity
    linarith
  · have h3 : 0 < b ^ 2 * ref.var ^ 2 * normSq (new.psfHat.px k l) := by positivity
    have h4 : 0 ≤ new.var ^ 2 * normSq (ref.psfHat.px k l) := by positivity
    linarith

/-- C27: and it does vanish, at every frequency, when both conditions fail. -/
theorem subtract_norm_zero (ref new : SubImg) (b : ℝ) (k l : ℕ)
    (h : ¬ (new.var ≠ 0 ∨ (ref.var ≠ 0 ∧ b ≠ 0))) : normHat ref new b k l = 0 := by
  rw [normHat_eq]
  have h1 : new.var = 0 := by
    by_contra h1; exact h (Or.inl h1)
  have h2 : ref.var = 0 ∨ b = 0 := by
    by_contra h2
    rw [not_or] at h2
    exact h (Or.inr h2)
  unfold normReal
  rcases h2 with h2 | h2 <;> simp [h1, h2]

/-! ## C24 -/

/-- Zackay, Ofek & Gal-Yam (2016) eq. 13: the proper subtraction coefficient. -/
noncomputable def zackayD (σr σn Fr Fn : ℝ) (Pr Pn R N : ℂ) : ℂ :=
  (Fr * Pr * N - Fn * Pn * R) /
    (Real.sqrt (σn ^ 2 * Fr ^ 2 * normSq Pr + σr ^ 2 * Fn ^ 2 * normSq Pn) : ℂ)

/-- eq. 15: the flux zero point of D. -/
noncomputable def zackayFD (σr σn Fr Fn : ℝ) : ℝ := Fr * Fn / Real.sqrt (σn ^ 2 * Fr ^ 2 + σr ^ 2 * Fn ^ 2)

/-- eq. 14: the PSF of D. -/
noncomputable def zackayPD (σr σn Fr Fn : ℝ) (Pr Pn : ℂ) : ℂ :=
  Fr * Fn * Pr * Pn / (zackayFD σr σn Fr Fn *
    (Real.sqrt (σn ^ 2 * Fr ^ 2 * normSq Pr + σr ^ 2 * Fn ^ 2 * normSq Pn) : ℂ))

/-- The (guarded) PSF coefficient moved so that the PSF's centre of mass is at the origin. -/
noncomputable def centredPsf (d : SubImg) (k l : ℕ) : ℂ :=
  d.psfHat.px k l * shiftPhase d.h d.w (negPair (centerOfMass d.psf)) k l

theorem normSq_shiftPhase (h w : ℕ) (d : ℝ × ℝ) (k l : ℕ) : normSq (shiftPhase h w d k l) = 1 := by
  unfold shiftPhase
  rw [normSq_mul, normSq_eq_norm_sq, normSq_eq_norm_sq, norm_tw, norm_tw]
  norm_num

theorem normSq_centredPsf (d : SubImg) (k l : ℕ) :
    normSq (centredPsf d k l) = normSq (d.psfHat.px k l) := by
  unfold centredPsf
  rw [normSq_mul, normSq_shiftPhase, mul_one]

theorem csqrt_normHat (ref new : SubImg) (b : ℝ) (k l : ℕ) :
    csqrt (normHat ref new b k l) = (Real.sqrt (normReal ref new b k l) : ℂ) := by
  rw [normHat_eq, csqrt_ofReal_nonneg]
  unfold normReal
  have h1 := normSq_nonneg (ref.psfHat.px k l)
  have h2 := normSq_nonneg (new.psfHat.px k l)
  positivity

/-- C24: every coefficient of D is Zackay's with flux zero points 1 (reference) and `b` (new), the
PSFs being recentred at the origin and the reference displaced by the fitted shift. -/
theorem subtract_D_is_zackay (ref new : SubImg) (hh : new.h = ref.h) (hw : new.w = ref.w)
    (b dx dy : ℝ) (k l : ℕ) :
    (dHat ref new b dx dy).px k l =
      zackayD ref.var new.var 1 b (centredPsf ref k l) (centredPsf new k l)
        (ref.interpedHat.px k l * shiftPhase ref.h ref.w (dx, dy) k l) (new.interpedHat.px k l) := by
  have hph : ∀ d, shiftPhase new.h new.w d k l = shiftPhase ref.h ref.w d k l := by
    intro d; rw [hh, hw]
  have hD : (dHat ref new b dx dy).px k l =
      ((dHatN ref new).px k l - (b : ℂ) * (dHatR ref new).px k l *
        shiftPhase ref.h ref.w (dx, dy) k l) / csqrt (normHat ref new b k l) := by
    unfold dHat
    by_cases h0 : dx = 0 ∧ dy = 0
    · have h1 : shiftPhase ref.h ref.w (0, 0) k l = 1 := by simp [shiftPhase, tw_zero]
      obtain ⟨rfl, rfl⟩ := h0
      simp [Img.map, h1]
    · simp only [if_neg h0]
      change (_ - (b : ℂ) * (dHatR ref new).px k l * shiftPhase new.h new.w (dx, dy) k l) / _ = _
      rw [hph]
  rw [hD, csqrt_normHat]
  unfold zackayD
  rw [normSq_centredPsf, normSq_centredPsf]
  have e : normReal ref new b k l = new.var ^ 2 * 1 ^ 2 * normSq (ref.psfHat.px k l) +
      ref.var ^ 2 * b ^ 2 * normSq (new.psfHat.px k l) := by unfold normReal; ring
  rw [e]
  congr 1
  have eN : (dHatN ref new).px k l = centredPsf ref k l * new.interpedHat.px k l := by
    change ref.psfHat.px k l * new.interpedHat.px k l * shiftPhase ref.h ref.w _ k l = _
    unfold centredPsf
    ring
  have eR : (dHatR ref new).px k l = centredPsf new k l * ref.interpedHat.px k l := by
    change new.psfHat.px k l * ref.interpedHat.px k l * shiftPhase new.h new.w _ k l = _
    unfold centredPsf
    ring
  rw [eN, eR]
  push_cast
  ring

end PI
