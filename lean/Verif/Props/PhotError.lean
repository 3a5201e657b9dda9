import Verif.Props.Photometry

/-!
# Property C191: how wrong fluxes of stars reach the zero points
-/

namespace PI

open Finset

/-- A catalogue whose fluxes are those of `c` times the factor of each row. -/
def Cat.Refluxed (c' c : Cat) (r : ℕ → ℚ) : Prop := c'.rows = c.rows.mapIdx fun i s => s.brighter (r i)

theorem refluxed_xy (c' c : Cat) (r : ℕ → ℚ) (h : c'.Refluxed c r) : c'.xy = c.xy := by
  unfold Cat.Refluxed at h
  simp only [Cat.xy, h]
  apply List.ext_getElem
  · simp
  · intro i h1 h2
    simp [Src.brighter]

theorem refluxed_length (c' c : Cat) (r : ℕ → ℚ) (h : c'.Refluxed c r) : c'.rows.length = c.rows.length := by
  unfold Cat.Refluxed at h
  simp [h]

theorem refluxed_flux (c' c : Cat) (r : ℕ → ℚ) (h : c'.Refluxed c r) (i : ℕ) (f : ℚ)
    (hf : (c.rows[i]?).map (·.flux) = some f) : (c'.rows[i]?).map (·.flux) = some (r i * f) := by
  unfold Cat.Refluxed at h
  rw [h, List.getElem?_mapIdx]
  cases e : c.rows[i]? with
  | none => rw [e] at hf; cases hf
  | some s =>
    rw [e] at hf
    simp only [Option.map_some, Option.some.injEq] at hf ⊢
    simp [Src.brighter, hf]

/-- Two strictly increasing lists with the same members are the same. -/
theorem increasing_same (D E : List ℕ) (hD : D.Pairwise (· < ·)) (hE : E.Pairwise (· < ·)) (h : ∀ o, o ∈ D ↔ o ∈ E) :
    D = E := by
  apply List.Perm.eq_of_pairwise (le := (· < ·))
  · intro x y _ _ hxy hyx; omega
  · exact hD
  · exact hE
  · exact (List.perm_ext_iff_of_nodup (hD.imp fun h => Nat.ne_of_lt h) (hE.imp fun h => Nat.ne_of_lt h)).2 h

/-- C191: the zero points of two images, and those of the same two images if the flux of each star is wrong by a
factor of its own. -/
theorem photometry_errors (q : Query) (hq : KdContract q)
    (lsqr : ℕ → ℕ → List ℝ → ℕ → ℝ) (hl : MinLsqSolver lsqr) (st st2 : Store) (m k : ℕ) (ρ r : ℕ → ℚ)
    (hfresh : (st m).Fresh) (hfresh2 : (st2 m).Fresh) (hm : (st2 m).Refluxed (st m) ρ) (hk : (st2 k).Refluxed (st k) r)
    (hρ : ∀ i, 0 < ρ i) (hr : ∀ i, 0 < r i)
    (hpm : ∀ s ∈ (st m).rows, 0 < s.flux) (hpk : ∀ s ∈ (st k).rows, 0 < s.flux)
    (hsome : ∃ o i, o < (st m).rows.length ∧ MutualAt q (st m).xy (st k).xy radius2 o i) :
    ∃ (D : List ℕ) (π : ℕ → ℕ) (z0 z1 w0 w1 : ℝ) (mm mm' : Option (List ℝ)) (s s' : Store),
      transparency q lsqr st [m, k] none = .ok ([z0, z1], mm, s) ∧
      transparency q lsqr st2 [m, k] none = .ok ([w0, w1], mm', s') ∧
      D ≠ [] ∧ D.Nodup ∧
      (∀ o, o ∈ D ↔ o < (st m).rows.length ∧ ∃ i, MutualAt q (st m).xy (st k).xy radius2 o i) ∧
      (∀ o ∈ D, MutualAt q (st m).xy (st k).xy radius2 o (π o)) ∧
      ∀ R0 R1 : ℝ, R0 = (D.map fun o => magGain (ρ o)).sum → R1 = (D.map fun o => magGain (r (π o))).sum →
        w0 - z0 = -(R0 - (R0 + R1) / (D.length + 2)) / D.length ∧
        w1 - z1 = -(R1 - (R0 + R1) / (D.length + 2)) / D.length := by
  obtain ⟨D, a, b, zps, mm, s, h1, h2, h3, h4, h5⟩ :=
    transparency_two_closed_form q hq lsqr hl st m k hfresh
  obtain ⟨E, c, d, zps', mm', s', g1, g2, g3, g4, g5⟩ :=
    transparency_two_closed_form q hq lsqr hl st2 m k hfresh2
  rw [refluxed_xy _ _ _ hm, refluxed_xy _ _ _ hk] at g2 g4
  rw [refluxed_length _ _ _ hm] at g2
  have hDE : E = D := increasing_same E D g3 h3 fun o => by rw [g2, h2]
  subst hDE
  have hDne : E ≠ [] := by
    obtain ⟨o, i, ho, hi⟩ := hsome
    exact List.ne_nil_of_mem ((h2 o).2 ⟨ho, i, hi⟩)
  have hex : ∀ o, ∃ i, o ∈ E → MutualAt q (st m).xy (st k).xy radius2 o i := by
    intro o
    by_cases ho : o ∈ E
    · obtain ⟨_, i, hi⟩ := (h2 o).1 ho
      exact ⟨i, fun _ => hi⟩
    · exact ⟨0, fun h => absurd h ho⟩
  choose π hπ using hex
  have key : ∀ j (hj : j < E.length), magOf (c j) = magOf (a j) - magGain (ρ E[j]) ∧
      magOf (d j) = magOf (b j) - magGain (r (π E[j])) := by
    intro j hj
    have hget : E[j]? = some E[j] := List.getElem?_eq_getElem hj
    obtain ⟨ha, i, hi, hb⟩ := h4 j _ hget
    obtain ⟨hc, i', hi', hd⟩ := g4 j _ hget
    have hmem : E[j] ∈ E := List.getElem_mem hj
    have e1 : i = π E[j] := (mutual_unique q _ _ _ _ _ _ _ hi (hπ _ hmem)).1 rfl
    have e2 : i' = π E[j] := (mutual_unique q _ _ _ _ _ _ _ hi' (hπ _ hmem)).1 rfl
    subst e1
    rw [e2] at hd
    rw [refluxed_flux _ _ _ hm _ _ ha] at hc
    rw [refluxed_flux _ _ _ hk _ _ hb] at hd
    have pa : 0 < a j := by
      cases e : (st m).rows[E[j]]? with
      | none => rw [e] at ha; cases ha
      | some x =>
        rw [e] at ha
        have := hpm x (List.mem_of_getElem? e)
        simp only [Option.map_some, Option.some.injEq] at ha
        rwa [← ha]
    have pb : 0 < b j := by
      cases e : (st k).rows[π E[j]]? with
      | none => rw [e] at hb; cases hb
      | some x =>
        rw [e] at hb
        have := hpk x (List.mem_of_getElem? e)
        simp only [Option.map_some, Option.some.injEq] at hb
        rwa [← hb]
    simp only [Option.some.injEq] at hc hd
    have m1 := magOf_ratio (a j) (ρ E[j]) pa (hρ _)
    have m2 := magOf_ratio (b j) (r (π E[j])) pb (hr _)
    rw [← hc, ← hd]
    unfold magGain
    constructor <;> linarith
  have sumList : ∀ f : ℕ → ℝ, (E.map f).sum = ∑ j : Fin E.length, f E[j] := by
    intro f
    rw [← List.sum_ofFn]
    congr 1
    apply List.ext_getElem
    · simp
    · intro i h1 h2
      simp
  have hC : ∑ j ∈ range E.length, magOf (c j) =
      ∑ j ∈ range E.length, magOf (a j) - (E.map fun o => magGain (ρ o)).sum := by
    rw [sumList, Finset.sum_range, Finset.sum_range, ← Finset.sum_sub_distrib]
    exact Finset.sum_congr rfl fun j _ => (key j j.2).1
  have hD : ∑ j ∈ range E.length, magOf (d j) =
      ∑ j ∈ range E.length, magOf (b j) - (E.map fun o => magGain (r (π o))).sum := by
    rw [sumList, Finset.sum_range, Finset.sum_range, ← Finset.sum_sub_distrib]
    exact Finset.sum_congr rfl fun j _ => (key j j.2).2
  have hz := h5 hDne _ _ rfl rfl
  have hw := g5 hDne _ _ rfl rfl
  rw [hC, hD] at hw
  subst hz hw
  refine ⟨E, π, _, _, _, _, mm, mm', s, s', h1, g1, hDne, h3.imp (fun h => Nat.ne_of_lt h), h2, fun o ho => hπ o ho, ?_⟩
  intro R0 R1 e0 e1
  rw [← e0, ← e1]
  have hlen : (E.length : ℝ) ≠ 0 := by
    have := List.length_pos_iff.2 hDne
    positivity
  have hlen2 : (E.length : ℝ) + 2 ≠ 0 := by positivity
  have hlen3 : 2 + (E.length : ℝ) ≠ 0 := by positivity
  constructor
  · field_simp
    ring
  · field_simp
    ring

theorem gain_sum_le (D : List ℕ) (f : ℕ → ℚ) (ε : ℝ) (h : ∀ o, |magGain (f o)| ≤ ε) :
    |(D.map fun o => magGain (f o)).sum| ≤ D.length * ε := by
  induction D with
  | nil => simp
  | cons x t ih =>
    simp only [List.map_cons, List.sum_cons, List.length_cons, Nat.cast_add, Nat.cast_one]
    have := abs_add_le (magGain (f x)) (t.map fun o => magGain (f o)).sum
    have := h x
    linarith

/-- C191: magnitudes wrong by at most `ε` make each zero point wrong by at most `ε`, and the offset between the images by
at most `2 ε`. -/
theorem photometry_errors_bounded (q : Query) (hq : KdContract q)
    (lsqr : ℕ → ℕ → List ℝ → ℕ → ℝ) (hl : MinLsqSolver lsqr) (st st2 : Store) (m k : ℕ) (ρ r : ℕ → ℚ) (ε : ℝ)
    (hfresh : (st m).Fresh) (hfresh2 : (st2 m).Fresh) (hm : (st2 m).Refluxed (st m) ρ) (hk : (st2 k).Refluxed (st k) r)
    (hρ : ∀ i, 0 < ρ i) (hr : ∀ i, 0 < r i) (hρε : ∀ i, |magGain (ρ i)| ≤ ε) (hrε : ∀ i, |magGain (r i)| ≤ ε)
    (hpm : ∀ s ∈ (st m).rows, 0 < s.flux) (hpk : ∀ s ∈ (st k).rows, 0 < s.flux)
    (hsome : ∃ o i, o < (st m).rows.length ∧ MutualAt q (st m).xy (st k).xy radius2 o i) :
    ∃ (z0 z1 w0 w1 : ℝ) (mm mm' : Option (List ℝ)) (s s' : Store),
      transparency q lsqr st [m, k] none = .ok ([z0, z1], mm, s) ∧
      transparency q lsqr st2 [m, k] none = .ok ([w0, w1], mm', s') ∧
      |w0 - z0| ≤ ε ∧ |w1 - z1| ≤ ε ∧ |(w1 - w0) - (z1 - z0)| ≤ 2 * ε := by
  obtain ⟨D, π, z0, z1, w0, w1, mm, mm', s, s', h1, h2, h3, _, _, _, h⟩ :=
    photometry_errors q hq lsqr hl st st2 m k ρ r hfresh hfresh2 hm hk hρ hr hpm hpk hsome
  obtain ⟨e0, e1⟩ := h _ _ rfl rfl
  have b0 := gain_sum_le D ρ ε hρε
  have b1 := gain_sum_le D (fun o => r (π o)) ε (fun o => hrε _)
  set R0 := (D.map fun o => magGain (ρ o)).sum
  set R1 := (D.map fun o => magGain (r (π o))).sum
  have hn : (0 : ℝ) < D.length := by exact_mod_cast List.length_pos_iff.2 h3
  set n : ℝ := (D.length : ℝ)
  have main : ∀ A B : ℝ, |A| ≤ n * ε → |B| ≤ n * ε → |-(A - (A + B) / (n + 2)) / n| ≤ ε := by
    intro A B hA hB
    have : -(A - (A + B) / (n + 2)) / n = (B - (n + 1) * A) / (n * (n + 2)) := by
      field_simp
      ring
    rw [this, abs_div, abs_of_pos (by positivity : 0 < n * (n + 2)), div_le_iff₀ (by positivity)]
    obtain ⟨a1, a2⟩ := abs_le.1 hA
    obtain ⟨c1, c2⟩ := abs_le.1 hB
    refine abs_le.2 ⟨?_, ?_⟩ <;> nlinarith
  have m0 : |w0 - z0| ≤ ε := by rw [e0]; exact main R0 R1 b0 b1
  have m1 : |w1 - z1| ≤ ε := by
    rw [e1, add_comm R0 R1]; exact main R1 R0 b1 b0
  refine ⟨z0, z1, w0, w1, mm, mm', s, s', h1, h2, m0, m1, ?_⟩
  obtain ⟨a1, a2⟩ := abs_le.1 m0
  obtain ⟨c1, c2⟩ := abs_le.1 m1
  exact abs_le.2 ⟨by linarith, by linarith⟩

/-- C191: the bounds of `photometry_errors_bounded` are reached. -/
theorem photometry_errors_sharp (q : Query) (hq : KdContract q)
    (lsqr : ℕ → ℕ → List ℝ → ℕ → ℝ) (hl : MinLsqSolver lsqr) (st st2 : Store) (m k : ℕ) (v : ℚ)
    (hfresh : (st m).Fresh) (hfresh2 : (st2 m).Fresh) (hm : (st2 m).Refluxed (st m) fun _ => v⁻¹)
    (hk : (st2 k).Refluxed (st k) fun _ => v) (hv : 0 < v)
    (hpm : ∀ s ∈ (st m).rows, 0 < s.flux) (hpk : ∀ s ∈ (st k).rows, 0 < s.flux)
    (hsome : ∃ o i, o < (st m).rows.length ∧ MutualAt q (st m).xy (st k).xy radius2 o i) :
    ∃ (z0 z1 : ℝ) (mm mm' : Option (List ℝ)) (s s' : Store),
      transparency q lsqr st [m, k] none = .ok ([z0, z1], mm, s) ∧
      transparency q lsqr st2 [m, k] none = .ok ([z0 + magGain v, z1 - magGain v], mm', s') := by
  obtain ⟨D, π, z0, z1, w0, w1, mm, mm', s, s', h1, h2, h3, _, _, _, h⟩ :=
    photometry_errors q hq lsqr hl st st2 m k _ _ hfresh hfresh2 hm hk (fun _ => inv_pos.2 hv) (fun _ => hv) hpm hpk hsome
  have hi : magGain v⁻¹ = -magGain v := by
    unfold magGain
    push_cast
    rw [Real.logb_inv]
    ring
  have hn : (0 : ℝ) < D.length := by exact_mod_cast List.length_pos_iff.2 h3
  obtain ⟨e0, e1⟩ := h (-(D.length * magGain v)) (D.length * magGain v) (by simp [hi]) (by simp)
  have f0 : w0 = z0 + magGain v := by
    have : w0 = z0 + (w0 - z0) := by ring
    rw [this, e0]
    field_simp
    ring
  have f1 : w1 = z1 - magGain v := by
    have : w1 = z1 + (w1 - z1) := by ring
    rw [this, e1]
    field_simp
    ring
  exact ⟨z0, z1, mm, mm', s, s', h1, by rw [h2, f0, f1]⟩

theorem sum_single (D : List ℕ) (hD : D.Nodup) (o : ℕ) (ho : o ∈ D) (f : ℕ → ℝ) (h0 : ∀ x ∈ D, x ≠ o → f x = 0) :
    (D.map f).sum = f o := by
  induction D with
  | nil => cases ho
  | cons x t ih =>
    rw [List.nodup_cons] at hD
    simp only [List.map_cons, List.sum_cons]
    by_cases hx : x = o
    · subst hx
      have : (t.map f).sum = 0 := by
        apply List.sum_eq_zero
        intro y hy
        obtain ⟨z, hz, rfl⟩ := List.mem_map.1 hy
        exact h0 z (List.mem_cons_of_mem _ hz) fun e => hD.1 (e ▸ hz)
      rw [this, add_zero]
    · rw [h0 x (List.mem_cons_self ..) hx, zero_add]
      refine ih hD.2 ?_ fun y hy => h0 y (List.mem_cons_of_mem _ hy)
      rcases List.mem_cons.1 ho with h | h
      · exact absurd h.symm hx
      · exact h

/-- The factors of a list of stars of which number `i` alone has changed, by `v`. -/
def starFactor (i : ℕ) (v : ℚ) (j : ℕ) : ℚ := if j = i then v else 1

theorem magGain_one : magGain 1 = 0 := by simp [magGain]

/-- C191: one star of the second image changed by a factor `v`: if it is one of the `n` stars matched, the zero points
move by fixed multiples of its change of magnitude over `n`. -/
theorem one_variable_star (q : Query) (hq : KdContract q)
    (lsqr : ℕ → ℕ → List ℝ → ℕ → ℝ) (hl : MinLsqSolver lsqr) (st st2 : Store) (m k o i : ℕ) (v : ℚ)
    (hfresh : (st m).Fresh) (hfresh2 : (st2 m).Fresh) (hm : (st2 m).Refluxed (st m) fun _ => 1)
    (hk : (st2 k).Refluxed (st k) (starFactor i v)) (hv : 0 < v)
    (hpm : ∀ s ∈ (st m).rows, 0 < s.flux) (hpk : ∀ s ∈ (st k).rows, 0 < s.flux)
    (ho : o < (st m).rows.length) (hoi : MutualAt q (st m).xy (st k).xy radius2 o i) :
    ∃ (D : List ℕ) (z0 z1 w0 w1 : ℝ) (mm mm' : Option (List ℝ)) (s s' : Store),
      transparency q lsqr st [m, k] none = .ok ([z0, z1], mm, s) ∧
      transparency q lsqr st2 [m, k] none = .ok ([w0, w1], mm', s') ∧
      D ≠ [] ∧ D.Nodup ∧
      (∀ o, o ∈ D ↔ o < (st m).rows.length ∧ ∃ i, MutualAt q (st m).xy (st k).xy radius2 o i) ∧
      w0 = z0 + magGain v / (D.length * (D.length + 2)) ∧
      w1 = z1 - magGain v * (D.length + 1) / (D.length * (D.length + 2)) ∧
      w1 - w0 = z1 - z0 - magGain v / D.length := by
  have hpos : ∀ j, 0 < starFactor i v j := by intro j; unfold starFactor; split <;> [exact hv; exact one_pos]
  obtain ⟨D, π, z0, z1, w0, w1, mm, mm', s, s', h1, h2, h3, h4, h5, h6, h⟩ :=
    photometry_errors q hq lsqr hl st st2 m k _ _ hfresh hfresh2 hm hk (fun _ => one_pos) hpos hpm hpk ⟨o, i, ho, hoi⟩
  have hoD : o ∈ D := (h5 o).2 ⟨ho, i, hoi⟩
  have hπo : π o = i := (mutual_unique q _ _ _ _ _ _ _ (h6 o hoD) hoi).1 rfl
  have s1 : (D.map fun x => magGain (starFactor i v (π x))).sum = magGain v := by
    rw [sum_single D h4 o hoD]
    · simp [hπo, starFactor]
    · intro x hx hxo
      have : π x ≠ i := fun e =>
        hxo ((mutual_unique q _ _ _ _ _ _ _ (h6 x hx) hoi).2 e)
      simp [starFactor, this, magGain_one]
  obtain ⟨e0, e1⟩ := h 0 (magGain v) (by simp [magGain_one]) s1.symm
  have hn : (0 : ℝ) < D.length := by exact_mod_cast List.length_pos_iff.2 h3
  have f0 : w0 = z0 + magGain v / (D.length * (D.length + 2)) := by
    have : w0 = z0 + (w0 - z0) := by ring
    rw [this, e0]
    field_simp
    ring
  have f1 : w1 = z1 - magGain v * (D.length + 1) / (D.length * (D.length + 2)) := by
    have : w1 = z1 + (w1 - z1) := by ring
    rw [this, e1]
    field_simp
    ring
  refine ⟨D, z0, z1, w0, w1, mm, mm', s, s', h1, h2, h3, h4, h5, f0, f1, ?_⟩
  rw [f0, f1]
  field_simp
  ring

/-- C191: a star that is not matched has no say, however bright it grows. -/
theorem unmatched_star (q : Query) (hq : KdContract q)
    (lsqr : ℕ → ℕ → List ℝ → ℕ → ℝ) (hl : MinLsqSolver lsqr) (st st2 : Store) (m k i : ℕ) (v : ℚ)
    (hfresh : (st m).Fresh) (hfresh2 : (st2 m).Fresh) (hm : (st2 m).Refluxed (st m) fun _ => 1)
    (hk : (st2 k).Refluxed (st k) (starFactor i v)) (hv : 0 < v)
    (hpm : ∀ s ∈ (st m).rows, 0 < s.flux) (hpk : ∀ s ∈ (st k).rows, 0 < s.flux)
    (hsome : ∃ o i, o < (st m).rows.length ∧ MutualAt q (st m).xy (st k).xy radius2 o i)
    (hno : ∀ o, ¬ MutualAt q (st m).xy (st k).xy radius2 o i) :
    ∃ (zps : List ℝ) (mm mm' : Option (List ℝ)) (s s' : Store),
      transparency q lsqr st [m, k] none = .ok (zps, mm, s) ∧
      transparency q lsqr st2 [m, k] none = .ok (zps, mm', s') := by
  have hpos : ∀ j, 0 < starFactor i v j := by intro j; unfold starFactor; split <;> [exact hv; exact one_pos]
  obtain ⟨D, π, z0, z1, w0, w1, mm, mm', s, s', h1, h2, h3, h4, h5, h6, h⟩ :=
    photometry_errors q hq lsqr hl st st2 m k _ _ hfresh hfresh2 hm hk (fun _ => one_pos) hpos hpm hpk hsome
  have s1 : (D.map fun x => magGain (starFactor i v (π x))).sum = 0 := by
    apply List.sum_eq_zero
    intro y hy
    obtain ⟨x, hx, rfl⟩ := List.mem_map.1 hy
    have : π x ≠ i := fun e => hno x (e ▸ h6 x hx)
    simp [starFactor, this, magGain_one]
  obtain ⟨e0, e1⟩ := h 0 0 (by simp [magGain_one]) s1.symm
  have f0 : w0 = z0 := by simpa [sub_eq_zero] using e0
  have f1 : w1 = z1 := by simpa [sub_eq_zero] using e1
  exact ⟨[z0, z1], mm, mm', s, s', h1, by rw [h2, f0, f1]⟩

/-- C191: one star in any number of good ones can make the offset wrong by as much as it likes. -/
theorem one_star_unbounded (n : ℕ) (hn : 0 < n) (M : ℝ) : ∃ v : ℚ, 0 < v ∧ M < magGain v / n := by
  obtain ⟨t, ht⟩ := exists_nat_gt (M * n)
  refine ⟨10 ^ t, by positivity, ?_⟩
  have hn' : (0 : ℝ) < n := by exact_mod_cast hn
  rw [lt_div_iff₀ hn']
  unfold magGain
  push_cast
  rw [Real.logb_pow, Real.logb_self_eq_one (by norm_num)]
  have : (0 : ℝ) ≤ t := by positivity
  linarith

/-- `twoStore` with the star of the second image that is matched a hundred times as bright. -/
def flareStore : Store := fun k =>
  if k = 0 then twoStore 0
  else { rows := [⟨40, 40, 7, 0⟩, ⟨10, 11, 1000000000000, 0⟩], hasSid := false, det := none }

theorem two_mutual : MutualAt bruteQuery (twoStore 0).xy (twoStore 1).xy radius2 0 1 :=
  ⟨[10, 10], [10, 11], by decide +kernel, by decide +kernel, ⟨1, by decide +kernel⟩, ⟨1, by decide +kernel⟩⟩

/-- The hypotheses of `one_variable_star` are met by the two catalogues of `twoStore` and a flare of the star they
share. -/
example (lsqr : ℕ → ℕ → List ℝ → ℕ → ℝ) (hl : MinLsqSolver lsqr) :
    ∃ (D : List ℕ) (z0 z1 w0 w1 : ℝ) (mm mm' : Option (List ℝ)) (s s' : Store),
      transparency bruteQuery lsqr twoStore [0, 1] none = .ok ([z0, z1], mm, s) ∧
      transparency bruteQuery lsqr flareStore [0, 1] none = .ok ([w0, w1], mm', s') ∧
      w1 - w0 = z1 - z0 - 5 / D.length := by
  have hg : magGain 100 = 5 := by
    have : magGain ((10 : ℚ) ^ 2) = 5 := by
      unfold magGain
      push_cast
      rw [Real.logb_pow, Real.logb_self_eq_one (by norm_num)]
      norm_num
    rw [← this]
    norm_num
  obtain ⟨D, z0, z1, w0, w1, mm, mm', s, s', h1, h2, _, _, _, _, _, h⟩ :=
    one_variable_star bruteQuery bruteQuery_contract lsqr hl twoStore flareStore 0 1 0 1 100 rfl rfl
      (by show _ = _; decide +kernel) (by show _ = _; decide +kernel) (by norm_num) (by decide +kernel) (by decide +kernel)
      (by decide +kernel) two_mutual
  exact ⟨D, z0, z1, w0, w1, mm, mm', s, s', h1, h2, by rw [h, hg]⟩

end PI
