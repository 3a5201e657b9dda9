import Verif.Props.PsfXY
import Verif.Props.VarPsfNorm

/-!
# Property C161: which PSF `get_psf_xy` returns

Specification vocabulary: `modelAt`, the combination of the basis elements at a position of the frame, and `unitModelAt`, the
same divided by its total: the PSF that basis and fields describe at that position.
-/

namespace PI
open PyS Finset

variable {F N S R : Type}

/-- Pixel `(i, j)` of the combination of the elements at row `r` and column `c` of the frame, for coefficient fields
`A k + B k * row + C k * column`. -/
noncomputable def modelAt (n : ℕ) (elem : ℕ → Img ℝ) (A B C : ℕ → ℝ) (r c : ℝ) (i j : ℕ) : ℝ :=
  ∑ k ∈ range n, (elem k).px i j * (A k + B k * r + C k * c)

/-- The same, divided by its total over a stamp of `2 d + 1` rows and columns. -/
noncomputable def unitModelAt (d n : ℕ) (elem : ℕ → Img ℝ) (A B C : ℕ → ℝ) (r c : ℝ) (i j : ℕ) : ℝ :=
  modelAt n elem A B C r c i j /
    ∑ a ∈ range (2 * d + 1), ∑ b ∈ range (2 * d + 1), modelAt n elem A B C r c a b

/-- A measured image of `H` rows and `W` columns: `n` basis elements of `2 d + 1` rows and columns, each centred on its middle
pixel, with affine coefficient fields; the normalisation is the one of C109. -/
structure AffinePsf (ev : F → ℤ → ℤ → ℝ) (toImg : N → Img ℝ) (s : PSFState ℝ F N S R) (H W d n : ℕ)
    (elem : ℕ → Img ℝ) (A B C : ℕ → ℝ) : Prop where
  pos : 0 < n
  basis : s.basis = some ((List.range n).map elem)
  fields : ∃ field : ℕ → F, s.fields = some ((List.range n).map fun k => some (field k)) ∧
    ∀ k < n, ∀ r c : ℤ, ev (field k) r c = A k + B k * r + C k * c
  normal : ∃ nr, s.normal = some nr ∧ (toImg nr).h = H ∧ (toImg nr).w = W ∧ ∀ d' : VarPsf,
    d'.interped.h = H → d'.interped.w = W →
    d'.terms = (List.range n).map (fun k => ⟨fun i j => A k + B k * i + C k * j, elem k⟩) →
    ∀ i < H, ∀ j < W, (toImg nr).px i j = d'.normalImg.px i j
  shape : ∀ k < n, (elem k).h = 2 * d + 1 ∧ (elem k).w = 2 * d + 1
  centred : ∀ k < n, BalancePoint (elem k) (d, d)

theorem sum_range_map {M : Type} [AddCommMonoid M] (n : ℕ) (f : ℕ → M) :
    ((List.range n).map f).sum = ∑ k ∈ range n, f k := by
  induction n with
  | zero => rfl
  | succ n ih => rw [List.range_succ, List.map_append, List.sum_append, ih, Finset.sum_range_succ]; simp

/-- The total of the combination is the total of each element times its field. -/
theorem modelAt_total (d n : ℕ) (elem : ℕ → Img ℝ) (A B C : ℕ → ℝ) (r c : ℝ)
    (hs : ∀ k < n, (elem k).h = 2 * d + 1 ∧ (elem k).w = 2 * d + 1) :
    ∑ a ∈ range (2 * d + 1), ∑ b ∈ range (2 * d + 1), modelAt n elem A B C r c a b =
      ∑ k ∈ range n, psfTotal (elem k) * (A k + B k * r + C k * c) := by
  unfold modelAt
  rw [Finset.sum_congr rfl fun a _ => Finset.sum_comm, Finset.sum_comm]
  refine Finset.sum_congr rfl fun k hk => ?_
  obtain ⟨h1, h2⟩ := hs k (mem_range.1 hk)
  unfold psfTotal
  rw [h1, h2]
  simp only [Finset.sum_mul]

/-- The normalisation image away from the edges. -/
theorem AffinePsf.normal_px {ev : F → ℤ → ℤ → ℝ} {toImg : N → Img ℝ} {s : PSFState ℝ F N S R} {H W d n : ℕ}
    {elem : ℕ → Img ℝ} {A B C : ℕ → ℝ} (h : AffinePsf ev toImg s H W d n elem A B C) :
    ∃ nr, s.normal = some nr ∧ (toImg nr).h = H ∧ (toImg nr).w = W ∧ ∀ i j, d ≤ i → i + d < H → d ≤ j → j + d < W →
      (toImg nr).px i j =
        ∑ a ∈ range (2 * d + 1), ∑ b ∈ range (2 * d + 1), modelAt n elem A B C i j a b := by
  obtain ⟨nr, h1, h2, h3, h4⟩ := h.normal
  refine ⟨nr, h1, h2, h3, fun i j hi hi' hj hj' => ?_⟩
  rw [h4 ⟨⟨H, W, fun _ _ => 0⟩, (List.range n).map (fun k => ⟨fun i j => A k + B k * i + C k * j, elem k⟩), 1, 1, none⟩
    rfl rfl rfl i (by omega) j (by omega), modelAt_total d n elem A B C i j h.shape]
  unfold VarPsf.normalImg
  simp only [List.map_map]
  rw [sum_range_map]
  refine Finset.sum_congr rfl fun k hk => ?_
  have hk := mem_range.1 hk
  obtain ⟨e1, e2⟩ := h.shape k hk
  have := varpsf_normal_linear ⟨⟨H, W, fun _ _ => 0⟩, [⟨fun i j => A k + B k * i + C k * j, elem k⟩], 1, 1, none⟩
    ⟨fun i j => A k + B k * i + C k * j, elem k⟩ rfl (d, d) (h.centred k hk) (A k) (B k) (C k) (fun _ _ _ _ => rfl) i j
    (by simp only [e1]; omega) (by simp only [e1]; omega) (by simp only [e2]; omega) (by simp only [e2]; omega)
  unfold VarPsf.normalImg at this
  simp only [List.map_cons, List.map_nil, List.sum_singleton, e1, e2] at this
  refine this.trans ?_
  rw [show (2 * d + 1) / 2 = d by omega]
  ring

/-- C161: at a position at least a stamp away from the edges, pixel `(i, j)` of the stamp that `get_psf_xy(x, y)` returns is
pixel `(i, j)` of the unit PSF at the place in the frame which that pixel covers, not at the position asked for; `x` counts rows
and `y` columns. The stamp is divided by its total. -/
theorem psf_xy_own_place (e : KEnv ℝ F N S R) {ev : F → ℤ → ℤ → ℝ} {toImg : N → Img ℝ} {s : PSFState ℝ F N S R}
    {H W d n : ℕ} {elem : ℕ → Img ℝ} {A B C : ℕ → ℝ} (h : AffinePsf ev toImg s H W d n elem A B C) (x y : ℚ) (r c : ℕ)
    (hx : roundHalfEven x = r) (hy : roundHalfEven y = c) (hr : 2 * d ≤ r) (hr' : r + 2 * d < H) (hc : 2 * d ≤ c)
    (hc' : c + 2 * d < W) :
    ∃ p, getPsfXY e ev toImg x y s = (.ok p, s) ∧ p.h = 2 * d + 1 ∧ p.w = 2 * d + 1 ∧
      ∀ i < 2 * d + 1, ∀ j < 2 * d + 1, p.px i j =
        unitModelAt d n elem A B C ((r : ℝ) - d + i) ((c : ℝ) - d + j) i j /
          ∑ a ∈ range (2 * d + 1), ∑ b ∈ range (2 * d + 1),
            unitModelAt d n elem A B C ((r : ℝ) - d + a) ((c : ℝ) - d + b) a b := by
  obtain ⟨nr, h1, h2, h3, h4⟩ := h.normal_px
  obtain ⟨field, hf, hev⟩ := h.fields
  obtain ⟨p, hp, e1, e2, e3⟩ := psf_xy_pairs e ev toImg x y s d n elem field nr h.pos h.basis hf h1 (h.shape 0 h.pos)
    (by rw [hx, h2]; omega) (by rw [hy, h3]; omega)
  have key : ∀ i < 2 * d + 1, ∀ j < 2 * d + 1, (∑ k ∈ Finset.range n, (elem k).px i j *
            ev (field k) (roundHalfEven x - d + i) (roundHalfEven y - d + j) /
          (toImg nr).px (roundHalfEven x - d + i).toNat (roundHalfEven y - d + j).toNat) =
      unitModelAt d n elem A B C ((r : ℝ) - d + i) ((c : ℝ) - d + j) i j := by
    intro i hi j hj
    have t1 : (roundHalfEven x - d + i).toNat = r - d + i := by rw [hx]; omega
    have t2 : (roundHalfEven y - d + j).toNat = c - d + j := by rw [hy]; omega
    have t3 : ((r - d + i : ℕ) : ℝ) = (r : ℝ) - d + i := by rw [Nat.cast_add, Nat.cast_sub (by omega)]
    have t4 : ((c - d + j : ℕ) : ℝ) = (c : ℝ) - d + j := by rw [Nat.cast_add, Nat.cast_sub (by omega)]
    rw [t1, t2, h4 _ _ (by omega) (by omega) (by omega) (by omega), t3, t4, ← Finset.sum_div]
    unfold unitModelAt
    congr 1
    unfold modelAt
    refine Finset.sum_congr rfl fun k hk => ?_
    rw [hev k (mem_range.1 hk), hx, hy]
    push_cast
    rfl
  refine ⟨p, hp, e1, e2, fun i hi j hj => ?_⟩
  rw [e3 i hi j hj, key i hi j hj]
  congr 1
  exact Finset.sum_congr rfl fun a ha => Finset.sum_congr rfl fun b hb => key a (mem_range.1 ha) b (mem_range.1 hb)

/-- C161: if only the strength of the PSF varies over the frame and not its shape (all fields are multiples `w k` of one
function that does not vanish on the stamp), `get_psf_xy` returns the PSF of the image, the same at every position. -/
theorem psf_xy_one_shape (e : KEnv ℝ F N S R) {ev : F → ℤ → ℤ → ℝ} {toImg : N → Img ℝ} {s : PSFState ℝ F N S R}
    {H W d n : ℕ} {elem : ℕ → Img ℝ} {w : ℕ → ℝ} {α β γ : ℝ}
    (h : AffinePsf ev toImg s H W d n elem (fun k => w k * α) (fun k => w k * β) (fun k => w k * γ)) (x y : ℚ) (r c : ℕ)
    (hx : roundHalfEven x = r) (hy : roundHalfEven y = c) (hr : 2 * d ≤ r) (hr' : r + 2 * d < H) (hc : 2 * d ≤ c)
    (hc' : c + 2 * d < W)
    (hφ : ∀ i < 2 * d + 1, ∀ j < 2 * d + 1, α + β * ((r : ℝ) - d + i) + γ * ((c : ℝ) - d + j) ≠ 0)
    (hT : ∑ k ∈ range n, w k * psfTotal (elem k) ≠ 0) :
    ∃ p, getPsfXY e ev toImg x y s = (.ok p, s) ∧ ∀ i < 2 * d + 1, ∀ j < 2 * d + 1,
      p.px i j = (∑ k ∈ range n, w k * (elem k).px i j) / ∑ k ∈ range n, w k * psfTotal (elem k) := by
  obtain ⟨p, hp, -, -, h3⟩ := psf_xy_own_place e h x y r c hx hy hr hr' hc hc'
  have key : ∀ i < 2 * d + 1, ∀ j < 2 * d + 1,
      unitModelAt d n elem (fun k => w k * α) (fun k => w k * β) (fun k => w k * γ) ((r : ℝ) - d + i) ((c : ℝ) - d + j) i j =
        (∑ k ∈ range n, w k * (elem k).px i j) / ∑ k ∈ range n, w k * psfTotal (elem k) := by
    intro i hi j hj
    have hne := hφ i hi j hj
    unfold unitModelAt
    rw [modelAt_total d n _ _ _ _ _ _ h.shape]
    unfold modelAt
    generalize α + β * ((r : ℝ) - d + i) + γ * ((c : ℝ) - d + j) = φ at hne
    have q : ∀ f : ℕ → ℝ, ∑ k ∈ range n, f k * (w k * α + w k * β * ((r : ℝ) - d + i) + w k * γ * ((c : ℝ) - d + j)) =
        (∑ k ∈ range n, w k * f k) * (α + β * ((r : ℝ) - d + i) + γ * ((c : ℝ) - d + j)) := by
      intro f
      rw [Finset.sum_mul]
      exact Finset.sum_congr rfl fun k _ => by ring
    rw [q, q, mul_div_mul_right _ _ (hφ i hi j hj)]
  refine ⟨p, hp, fun i hi j hj => ?_⟩
  rw [h3 i hi j hj, key i hi j hj, Finset.sum_congr rfl fun a ha => Finset.sum_congr rfl fun b hb =>
    key a (mem_range.1 ha) b (mem_range.1 hb)]
  have : ∑ a ∈ range (2 * d + 1), ∑ b ∈ range (2 * d + 1),
      (∑ k ∈ range n, w k * (elem k).px a b) / ∑ k ∈ range n, w k * psfTotal (elem k) = 1 := by
    simp only [← Finset.sum_div]
    rw [div_eq_one_iff_eq hT, Finset.sum_congr rfl fun a _ => Finset.sum_comm, Finset.sum_comm]
    refine Finset.sum_congr rfl fun k hk => ?_
    obtain ⟨h1, h2⟩ := h.shape k (mem_range.1 hk)
    unfold psfTotal
    rw [h1, h2]
    simp only [Finset.mul_sum]
  rw [this, div_one]

/-- The second moments of a stamp about its middle: `(row, row)`, `(row, column)`, `(column, column)`. -/
noncomputable def secondMoments (d : ℕ) (p : Img ℝ) : ℝ × ℝ × ℝ :=
  (∑ i ∈ range (2 * d + 1), ∑ j ∈ range (2 * d + 1), ((i : ℝ) - d) * ((i : ℝ) - d) * p.px i j,
    ∑ i ∈ range (2 * d + 1), ∑ j ∈ range (2 * d + 1), ((i : ℝ) - d) * ((j : ℝ) - d) * p.px i j,
    ∑ i ∈ range (2 * d + 1), ∑ j ∈ range (2 * d + 1), ((j : ℝ) - d) * ((j : ℝ) - d) * p.px i j)

/-- A weighted sum over the stamp of the pixels, each of the model at its own place. -/
theorem own_weighted (d n : ℕ) (elem : ℕ → Img ℝ) (A B C : ℕ → ℝ) (r c : ℝ) (g : ℕ → ℕ → ℝ) :
    ∑ i ∈ range (2 * d + 1), ∑ j ∈ range (2 * d + 1), g i j * modelAt n elem A B C (r - d + i) (c - d + j) i j =
      ∑ k ∈ range n, ((A k + B k * r + C k * c) *
          (∑ i ∈ range (2 * d + 1), ∑ j ∈ range (2 * d + 1), g i j * (elem k).px i j) +
        B k * (∑ i ∈ range (2 * d + 1), ∑ j ∈ range (2 * d + 1), g i j * (((i : ℝ) - d) * (elem k).px i j)) +
        C k * (∑ i ∈ range (2 * d + 1), ∑ j ∈ range (2 * d + 1), g i j * (((j : ℝ) - d) * (elem k).px i j))) := by
  unfold modelAt
  simp only [Finset.mul_sum, ← Finset.sum_add_distrib]
  rw [Finset.sum_congr rfl fun a _ => Finset.sum_comm, Finset.sum_comm]
  exact Finset.sum_congr rfl fun k _ => Finset.sum_congr rfl fun i _ => Finset.sum_congr rfl fun j _ => by ring

/-- C161: an image whose PSF keeps its total `T ≠ 0` all over the frame. The PSF of every position is centred on the middle of
the stamp; the stamp of `get_psf_xy` is the unit model, each pixel at its own place, sums to one without the last division, and
its centre is away from the middle by the slopes of the fields times the second moments of the elements. -/
theorem psf_xy_off_centre (e : KEnv ℝ F N S R) {ev : F → ℤ → ℤ → ℝ} {toImg : N → Img ℝ} {s : PSFState ℝ F N S R}
    {H W d n : ℕ} {elem : ℕ → Img ℝ} {A B C : ℕ → ℝ} (h : AffinePsf ev toImg s H W d n elem A B C) (x y : ℚ) (r c : ℕ)
    (hx : roundHalfEven x = r) (hy : roundHalfEven y = c) (hr : 2 * d ≤ r) (hr' : r + 2 * d < H) (hc : 2 * d ≤ c)
    (hc' : c + 2 * d < W) (T : ℝ) (hT : T ≠ 0) (hA : ∑ k ∈ range n, psfTotal (elem k) * A k = T)
    (hB : ∑ k ∈ range n, psfTotal (elem k) * B k = 0) (hC : ∑ k ∈ range n, psfTotal (elem k) * C k = 0) :
    ∃ p, getPsfXY e ev toImg x y s = (.ok p, s) ∧
      (∀ i < 2 * d + 1, ∀ j < 2 * d + 1, p.px i j = modelAt n elem A B C ((r : ℝ) - d + i) ((c : ℝ) - d + j) i j / T) ∧
      (∑ i ∈ range (2 * d + 1), ∑ j ∈ range (2 * d + 1), ((i : ℝ) - d) * p.px i j =
        (∑ k ∈ range n, (B k * (secondMoments d (elem k)).1 + C k * (secondMoments d (elem k)).2.1)) / T) ∧
      (∑ i ∈ range (2 * d + 1), ∑ j ∈ range (2 * d + 1), ((j : ℝ) - d) * p.px i j =
        (∑ k ∈ range n, (B k * (secondMoments d (elem k)).2.1 + C k * (secondMoments d (elem k)).2.2)) / T) ∧
      ∀ r' c' : ℝ,
        ∑ i ∈ range (2 * d + 1), ∑ j ∈ range (2 * d + 1), ((i : ℝ) - d) * unitModelAt d n elem A B C r' c' i j = 0 ∧
        ∑ i ∈ range (2 * d + 1), ∑ j ∈ range (2 * d + 1), ((j : ℝ) - d) * unitModelAt d n elem A B C r' c' i j = 0 := by
  obtain ⟨p, hp, -, -, h3⟩ := psf_xy_own_place e h x y r c hx hy hr hr' hc hc'
  have tot : ∀ r' c' : ℝ, ∑ a ∈ range (2 * d + 1), ∑ b ∈ range (2 * d + 1), modelAt n elem A B C r' c' a b = T := by
    intro r' c'
    rw [modelAt_total d n _ _ _ _ _ _ h.shape]
    have : ∑ k ∈ range n, psfTotal (elem k) * (A k + B k * r' + C k * c') =
        ∑ k ∈ range n, psfTotal (elem k) * A k + (∑ k ∈ range n, psfTotal (elem k) * B k) * r' +
          (∑ k ∈ range n, psfTotal (elem k) * C k) * c' := by
      rw [Finset.sum_mul, Finset.sum_mul, ← Finset.sum_add_distrib, ← Finset.sum_add_distrib]
      exact Finset.sum_congr rfl fun k _ => by ring
    rw [this, hA, hB, hC]
    ring
  have unit : ∀ r' c' : ℝ, ∀ i j, unitModelAt d n elem A B C r' c' i j = modelAt n elem A B C r' c' i j / T := by
    intro r' c' i j
    unfold unitModelAt
    rw [tot]
  have mid : ∀ k < n, (∑ i ∈ range (2 * d + 1), ∑ j ∈ range (2 * d + 1), ((i : ℝ) - d) * (elem k).px i j = 0) ∧
      ∑ i ∈ range (2 * d + 1), ∑ j ∈ range (2 * d + 1), ((j : ℝ) - d) * (elem k).px i j = 0 := by
    intro k hk
    obtain ⟨h1, h2⟩ := h.shape k hk
    have := h.centred k hk
    unfold BalancePoint at this
    rwa [h1, h2] at this
  have one : ∑ a ∈ range (2 * d + 1), ∑ b ∈ range (2 * d + 1),
      unitModelAt d n elem A B C ((r : ℝ) - d + a) ((c : ℝ) - d + b) a b = 1 := by
    simp only [unit, ← Finset.sum_div]
    rw [div_eq_one_iff_eq hT, ← tot r c, modelAt_total d n _ _ _ _ _ _ h.shape]
    have := own_weighted d n elem A B C r c (fun _ _ => 1)
    simp only [one_mul] at this
    rw [this]
    refine Finset.sum_congr rfl fun k hk => ?_
    obtain ⟨m1, m2⟩ := mid k (mem_range.1 hk)
    obtain ⟨h1, h2⟩ := h.shape k (mem_range.1 hk)
    rw [m1, m2]
    unfold psfTotal
    rw [h1, h2]
    ring
  have px : ∀ i < 2 * d + 1, ∀ j < 2 * d + 1,
      p.px i j = modelAt n elem A B C ((r : ℝ) - d + i) ((c : ℝ) - d + j) i j / T := by
    intro i hi j hj
    rw [h3 i hi j hj, one, div_one, unit]
  have wt : ∀ g : ℕ → ℕ → ℝ, ∑ i ∈ range (2 * d + 1), ∑ j ∈ range (2 * d + 1), g i j * p.px i j =
      (∑ i ∈ range (2 * d + 1), ∑ j ∈ range (2 * d + 1),
        g i j * modelAt n elem A B C ((r : ℝ) - d + i) ((c : ℝ) - d + j) i j) / T := by
    intro g
    simp only [Finset.sum_div]
    exact Finset.sum_congr rfl fun i hi => Finset.sum_congr rfl fun j hj => by
      rw [px i (mem_range.1 hi) j (mem_range.1 hj), mul_div_assoc]
  refine ⟨p, hp, px, ?_, ?_, fun r' c' => ?_⟩
  · rw [wt fun i _ => (i : ℝ) - d, own_weighted]
    congr 1
    refine Finset.sum_congr rfl fun k hk => ?_
    rw [(mid k (mem_range.1 hk)).1]
    unfold secondMoments
    simp only [mul_assoc]
    ring
  · rw [wt fun _ j => (j : ℝ) - d, own_weighted]
    congr 1
    refine Finset.sum_congr rfl fun k hk => ?_
    rw [(mid k (mem_range.1 hk)).2, mul_zero, zero_add]
    unfold secondMoments
    simp only [mul_assoc]
    congr 2
    exact Finset.sum_congr rfl fun i _ => Finset.sum_congr rfl fun j _ => by ring
  · have z : ∀ g : ℕ → ℕ → ℝ,
        (∀ k < n, ∑ i ∈ range (2 * d + 1), ∑ j ∈ range (2 * d + 1), g i j * (elem k).px i j = 0) →
        ∑ i ∈ range (2 * d + 1), ∑ j ∈ range (2 * d + 1), g i j * unitModelAt d n elem A B C r' c' i j = 0 := by
      intro g hg
      simp only [unit]
      unfold modelAt
      simp only [Finset.sum_div, Finset.mul_sum]
      rw [Finset.sum_congr rfl fun a _ => Finset.sum_comm, Finset.sum_comm]
      refine Finset.sum_eq_zero fun k hk => ?_
      have : ∑ i ∈ range (2 * d + 1), ∑ j ∈ range (2 * d + 1),
          g i j * ((elem k).px i j * (A k + B k * r' + C k * c') / T) =
          (∑ i ∈ range (2 * d + 1), ∑ j ∈ range (2 * d + 1), g i j * (elem k).px i j) *
            ((A k + B k * r' + C k * c') / T) := by
        simp only [Finset.sum_mul]
        exact Finset.sum_congr rfl fun i _ => Finset.sum_congr rfl fun j _ => by ring
      rw [this, hg k (mem_range.1 hk), zero_mul]
    exact ⟨z (fun i _ => (i : ℝ) - d) fun k hk => (mid k hk).1, z (fun _ j => (j : ℝ) - d) fun k hk => (mid k hk).2⟩

/-! ## Cases -/

/-- A point, and three pixels of a column. -/
noncomputable def pointAndBar (k : ℕ) : Img ℝ :=
  if k = 0 then ⟨3, 3, fun i j => if i = 1 ∧ j = 1 then 1 else 0⟩ else ⟨3, 3, fun _ j => if j = 1 then 1 / 3 else 0⟩

/-- An image with these two elements and affine fields. -/
noncomputable def barFields (A B C : ℕ → ℝ) : VarPsf :=
  ⟨⟨11, 11, fun _ _ => 0⟩, (List.range 2).map fun k => ⟨fun i j => A k + B k * i + C k * j, pointAndBar k⟩, 1, 1, none⟩

/-- That image after its PSF has been measured. -/
noncomputable def barState : PSFState ℝ ℕ Unit Unit Unit :=
  { infLoss := 1 / 10, basis := some ((List.range 2).map pointAndBar), fields := some ((List.range 2).map fun k => some k),
    normal := some () }

theorem bar_affine (A B C : ℕ → ℝ) : AffinePsf (fun (k : ℕ) r c => A k + B k * (r : ℝ) + C k * (c : ℝ))
    (fun _ => (barFields A B C).normalImg) barState 11 11 1 2 pointAndBar A B C where
  pos := by omega
  basis := rfl
  fields := ⟨fun k => k, rfl, fun _ _ _ _ => rfl⟩
  normal := by
    refine ⟨(), rfl, rfl, rfl, fun d' h1 h2 h3 i _ j _ => ?_⟩
    unfold VarPsf.normalImg
    rw [h1, h2, h3]
    rfl
  shape := by
    intro k _
    unfold pointAndBar
    split <;> exact ⟨rfl, rfl⟩
  centred := by
    intro k _
    unfold BalancePoint pointAndBar
    split <;> norm_num [Finset.sum_range_succ]

theorem bar_totals : psfTotal (pointAndBar 0) = 1 ∧ psfTotal (pointAndBar 1) = 1 := by
  constructor <;> norm_num [psfTotal, pointAndBar, Finset.sum_range_succ]

/-- The point gives way to the bar from the first row downwards: the fields are `1 - row / 20` and `row / 20`. -/
noncomputable def fadeA (k : ℕ) : ℝ := if k = 0 then 1 else 0
noncomputable def fadeB (k : ℕ) : ℝ := if k = 0 then -1 / 20 else 1 / 20

/-- C161: asked at row 5 and column 3, the PSF returned is displaced by a thirtieth of a pixel along the rows; with the
arguments exchanged, as the columns `x` and `y` of a catalogue would give them, another PSF is returned. -/
theorem psf_xy_bar (e : KEnv ℝ ℕ Unit Unit Unit) : ∃ p q,
    getPsfXY e (fun (k : ℕ) r c => fadeA k + fadeB k * (r : ℝ) + 0 * (c : ℝ))
      (fun _ => (barFields fadeA fadeB fun _ => 0).normalImg) 5 3 barState = (.ok p, barState) ∧
    getPsfXY e (fun (k : ℕ) r c => fadeA k + fadeB k * (r : ℝ) + 0 * (c : ℝ))
      (fun _ => (barFields fadeA fadeB fun _ => 0).normalImg) 3 5 barState = (.ok q, barState) ∧
    ∑ i ∈ range 3, ∑ j ∈ range 3, ((i : ℝ) - 1) * p.px i j = 1 / 30 ∧ p.px 1 1 = 5 / 6 ∧ q.px 1 1 = 9 / 10 := by
  obtain ⟨t0, t1⟩ := bar_totals
  obtain ⟨p, hp, p1, p2, -⟩ := psf_xy_off_centre e (bar_affine fadeA fadeB fun _ => 0) 5 3 5 3 (by decide +kernel) (by decide +kernel) (by omega)
    (by omega) (by omega) (by omega) 1 one_ne_zero (by norm_num [Finset.sum_range_succ, t0, t1, fadeA, fadeB])
    (by norm_num [Finset.sum_range_succ, t0, t1, fadeA, fadeB]) (by simp)
  obtain ⟨q, hq, q1, -⟩ := psf_xy_off_centre e (bar_affine fadeA fadeB fun _ => 0) 3 5 3 5 (by decide +kernel) (by decide +kernel) (by omega)
    (by omega) (by omega) (by omega) 1 one_ne_zero (by norm_num [Finset.sum_range_succ, t0, t1, fadeA, fadeB])
    (by norm_num [Finset.sum_range_succ, t0, t1, fadeA, fadeB]) (by simp)
  refine ⟨p, q, hp, hq, ?_, ?_, ?_⟩
  · have : ((1 : ℕ) : ℝ) = 1 := Nat.cast_one
    rw [this] at p2
    exact p2.trans (by norm_num [secondMoments, pointAndBar, fadeA, fadeB, Finset.sum_range_succ])
  · rw [p1 1 (by omega) 1 (by omega)]
    norm_num [modelAt, pointAndBar, fadeA, fadeB, Finset.sum_range_succ]
  · rw [q1 1 (by omega) 1 (by omega)]
    norm_num [modelAt, pointAndBar, fadeA, fadeB, Finset.sum_range_succ]

/-- Point and bar of equal strength, both growing along rows and columns: the same PSF everywhere. -/
example (e : KEnv ℝ ℕ Unit Unit Unit) (r c : ℕ) (hr : 2 ≤ r) (hr' : r < 9) (hc : 2 ≤ c) (hc' : c < 9) : ∃ p,
    getPsfXY e (fun (_ : ℕ) r c => 1 * 1 + 1 * (1 / 20) * (r : ℝ) + 1 * (1 / 30) * (c : ℝ))
      (fun _ => (barFields (fun _ => 1 * 1) (fun _ => 1 * (1 / 20)) fun _ => 1 * (1 / 30)).normalImg) r c barState =
        (.ok p, barState) ∧ p.px 1 1 = 2 / 3 := by
  obtain ⟨t0, t1⟩ := bar_totals
  have rd : ∀ m : ℕ, roundHalfEven (m : ℚ) = m := by
    intro m
    unfold roundHalfEven
    simp
  obtain ⟨p, hp, h⟩ := psf_xy_one_shape e (w := fun _ => 1) (bar_affine (fun _ => 1 * 1) (fun _ => 1 * (1 / 20)) fun _ => 1 * (1 / 30))
    r c r c (rd r) (rd c) (by omega) (by omega) (by omega) (by omega)
    (fun i _ j _ => by
      have h1 : (2 : ℝ) ≤ r := by exact_mod_cast hr
      have h2 : (2 : ℝ) ≤ c := by exact_mod_cast hc
      have : (0 : ℝ) ≤ i := Nat.cast_nonneg i
      have : (0 : ℝ) ≤ j := Nat.cast_nonneg j
      push_cast
      intro h
      linarith)
    (by norm_num [Finset.sum_range_succ, t0, t1])
  refine ⟨p, hp, ?_⟩
  rw [h 1 (by omega) 1 (by omega)]
  simp only [Finset.sum_range_succ, Finset.sum_range_zero, t0, t1]
  norm_num [pointAndBar]

end PI
