import Verif.Props.MatchGeom

/-! # Property C88: mean magnitudes and catalogues that `transparency` leaves -/

namespace PI
open Finset

/-- C88: with a minimum-norm solver entry `i` of the mean magnitudes is `(C_i - T/(p+q))/p`, `C_i` being
the sum of the right-hand sides at position `i` of the blocks of all `p` images and `T` that of all
right-hand sides. -/
theorem transparency_meanmags (q : Query) (lsqr : ℕ → ℕ → List ℝ → ℕ → ℝ)
    (hl : MinLsqSolver lsqr) (st : Store) (images : List ℕ) (master : Option ℕ) (r : TrMatch)
    (hr : trMatch q st images master = .ok r) (hp : 0 < r.p) (n : ℕ)
    (hn : n = r.det.count true) (hpos : 0 < n) :
    ∃ zps, transparency q lsqr st images master = .ok (zps, some ((List.range n).map fun i =>
        ((∑ j ∈ range r.p, vecOf (r.fluxes.map magOf) (j * n + i)) -
          (∑ c ∈ range (r.p * n), vecOf (r.fluxes.map magOf) c) / (r.p + n)) / r.p), r.store) := by
  have hc : r.det.count true ≠ 0 := by omega
  subst hn
  refine ⟨_, by
    simp only [transparency, hr, if_neg hc]
    congr 4
    apply List.map_congr_left
    intro i hi
    have hi' : i < r.det.count true := by simpa using hi
    have := (isMinLsq_iff r.p _ hp hpos _ _).1 (hl r.p _ (r.fluxes.map magOf) hp hpos) (r.p + i)
      (by omega)
    rw [this, closedForm_mm, sum_range_block]
    rfl⟩

/-- C88, two images: the mean magnitude of common source `s` is the mean of its two magnitudes less
`(S0 + S1) / (2 (2 + q))`: a common offset depending on the number of sources is taken off. -/
theorem transparency_two_meanmags (q : Query) (hq : KdContract q)
    (lsqr : ℕ → ℕ → List ℝ → ℕ → ℝ) (hl : MinLsqSolver lsqr) (st : Store) (m k : ℕ)
    (hfresh : (st m).Fresh) :
    ∃ (D : List ℕ) (a b : ℕ → ℚ) (zps : List ℝ) (mm : Option (List ℝ)) (st' : Store),
      transparency q lsqr st [m, k] none = .ok (zps, mm, st') ∧
      (∀ o : ℕ, o ∈ D ↔ o < (st m).rows.length ∧
        ∃ i, MutualAt q (st m).xy (st k).xy radius2 o i) ∧ D.Pairwise (· < ·) ∧
      (∀ s o : ℕ, D[s]? = some o → ((st m).rows[o]?).map (·.flux) = some (a s) ∧
        ∃ i, MutualAt q (st m).xy (st k).xy radius2 o i ∧
          ((st k).rows[i]?).map (·.flux) = some (b s)) ∧
      (D ≠ [] → ∀ T : ℝ, T = ∑ s ∈ range D.length, (magOf (a s) + magOf (b s)) →
        mm = some ((List.range D.length).map fun s =>
          (magOf (a s) + magOf (b s)) / 2 - T / (2 * (2 + D.length)))) := by
  obtain ⟨r, D, F, h1, h2, _, _, h4, h5, h6, h7, h8, h9⟩ :=
    transparency_detect q hq st [m, k] none m [k] rfl (by simp) hfresh
  have hr2 : r.p = 2 := h2
  have hab : ∀ s o : ℕ, D[s]? = some o → ((st m).rows[o]?).map (·.flux) = some (F 0 s) ∧
        ∃ i, MutualAt q (st m).xy (st k).xy radius2 o i ∧
          ((st k).rows[i]?).map (·.flux) = some (F 1 s) := fun s o hs =>
    ⟨h8 s o hs, h9 s o 0 k hs rfl⟩
  have hDm : ∀ o : ℕ, o ∈ D ↔ o < (st m).rows.length ∧
        ∃ i, MutualAt q (st m).xy (st k).xy radius2 o i := by
    intro o; rw [h6]; simp
  by_cases hD : D = []
  · have hc : r.det.count true = 0 := by rw [h5, hD]; rfl
    exact ⟨D, F 0, F 1, List.replicate r.p 1, none, r.store,
      by simp only [transparency, h1, if_pos hc], hDm, h4, hab, fun h => absurd hD h⟩
  · have hpos : 0 < D.length := List.length_pos_iff.2 hD
    obtain ⟨zps, hz⟩ := transparency_meanmags q lsqr hl st [m, k] none r h1 (by omega) D.length h5.symm
      hpos
    refine ⟨D, F 0, F 1, zps, _, r.store, hz, hDm, h4, hab, fun _ T hT => ?_⟩
    congr 1
    apply List.map_congr_left
    intro s hs
    have hs' : s < D.length := by simpa using hs
    have hv : ∀ j < 2, ∀ i < D.length,
        vecOf (r.fluxes.map magOf) (j * D.length + i) = magOf (F j i) := by
      intro j hj i hi
      rw [h7 hD, hr2]
      exact vecOf_map_of_getElem _ _ _
        (((transparency_rows_iff 2 D.length (by omega)).2.2 (Or.inl le_rfl)) F j i hj hi)
    have hsum : ∑ c ∈ range (r.p * D.length), vecOf (r.fluxes.map magOf) c = T := by
      rw [hr2, sum_range_block, hT, sum_range_succ, sum_range_one, Finset.sum_add_distrib]
      congr 1 <;> exact Finset.sum_congr rfl fun i hi => hv _ (by omega) i (mem_range.1 hi)
    rw [hsum, hr2, sum_range_succ, sum_range_one, hv 0 (by omega) s hs', hv 1 (by omega) s hs']
    have : (2 + (D.length : ℝ)) ≠ 0 := by positivity
    push_cast
    field_simp

theorem insertionSort_sid (l : List Src) :
    (l.insertionSort (fun a b => a.sid ≤ b.sid)).Pairwise (fun a b => a.sid ≤ b.sid) := by
  have : Std.Total (fun a b : Src => a.sid ≤ b.sid) := ⟨fun a b => le_total _ _⟩
  have : IsTrans Src (fun a b => a.sid ≤ b.sid) := ⟨fun a b c => le_trans⟩
  exact List.pairwise_insertionSort _ _

/-- C88: what happens to the catalogue of every other image: each row `i` gets the index of its mutual
neighbour among the master's sources, or −13133 if it has none; positions and fluxes stay; the rows
are put in ascending order of that number. -/
theorem transparency_catalogues (q : Query) (hq : KdContract q) (st : Store) (images : List ℕ)
    (master : Option ℕ) (m : ℕ) (imgs : List ℕ)
    (hs : splitMaster images master = .ok (m, imgs)) (hnd : imgs.Nodup) (hfresh : (st m).Fresh) :
    ∃ r, trMatch q st images master = .ok r ∧ ∀ k ∈ imgs, k ≠ m → ∃ ids : List ℤ,
      ids.length = (st k).rows.length ∧
      (∀ i o : ℕ, ids[i]? = some (o : ℤ) ↔ MutualAt q (st m).xy (st k).xy radius2 o i) ∧
      (∀ i < (st k).rows.length, (¬ ∃ o, MutualAt q (st m).xy (st k).xy radius2 o i) →
        ids[i]? = some (-13133)) ∧
      (r.store k).rows.Perm (List.zipWith (fun s v => { s with sid := v }) (st k).rows ids) ∧
      (r.store k).rows.Pairwise (fun a b => a.sid ≤ b.sid) ∧ (r.store k).hasSid = true := by
  obtain ⟨r, h1, _, _, h4, _⟩ := trMatch_total q st images master m imgs hs hnd
  refine ⟨r, h1, fun k hk hkm => ⟨idsFor q (withSid (st m)) (st k), ?_, ?_, ?_, ?_, ?_, ?_⟩⟩
  · rw [idsFor, matching_length]; simp [Cat.xy]
  · intro i o
    have hlen := sids_length (withSid (st m))
    have hun := fresh_unmatched (st m) hfresh
    constructor
    · intro hi
      have hil : i < (st k).xy.length := by
        have := (List.getElem?_eq_some_iff.1 hi).1
        rwa [idsFor, matching_length] at this
      obtain ⟨o', g1, g2⟩ := (matching_iff_mutual q hq _ _ hlen hun (st k).xy radius2 i hil (o : ℤ)).1
        ⟨hi, by simp [unmatchedId]⟩
      rw [withSid_fresh_sids _ hfresh] at g2
      split at g2
      · have : o' = o := by exact_mod_cast Option.some.inj g2
        subst this
        rwa [withSid_xy] at g1
      · simp at g2
    · intro hi
      have hol : o < (st m).rows.length := by
        obtain ⟨mo, _, h, _⟩ := hi
        have := (List.getElem?_eq_some_iff.1 h).1
        simpa [Cat.xy] using this
      have hil : i < (st k).xy.length := by
        obtain ⟨_, ci, _, h, _⟩ := hi
        exact (List.getElem?_eq_some_iff.1 h).1
      rw [← withSid_xy] at hi
      exact ((matching_iff_mutual q hq _ _ hlen hun (st k).xy radius2 i hil (o : ℤ)).2
        ⟨o, hi, by rw [withSid_fresh_sids _ hfresh, if_pos hol]⟩).1
  · intro i hi hno
    have hil : i < (st k).xy.length := by simpa [Cat.xy] using hi
    rcases matching_cases q hq (withSid (st m)).xy (withSid (st m)).sids (sids_length _) (st k).xy
      radius2 i hil with ⟨o, v, g1, _⟩ | ⟨_, g2⟩
    · rw [withSid_xy] at g1
      exact absurd ⟨o, g1⟩ hno
    · exact g2
  · rw [h4 k hk hkm]
    exact List.perm_insertionSort _ _
  · rw [h4 k hk hkm]
    exact insertionSort_sid _
  · rw [h4 k hk hkm]
    rfl

/-- In the example one source of image 1 is matched to source 0 of the master and one is not. -/
example : (trMatch bruteQuery twoStore [0, 1] none).map (fun r => (r.store 1).rows) =
    .ok [⟨40, 40, 7, -13133⟩, ⟨10, 11, 10000000000, 0⟩] := by decide +kernel

end PI
