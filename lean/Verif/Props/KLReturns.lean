import Verif.Props.KLMany

/-!
# When the basis is made (C98)

`kl_basis` of an object that has not been measured returns a list, for any number of stars, as soon as
all stamps are finite and the library finds as many eigenvalues as there are stars, not all of them zero.
-/

namespace PI
open PyS

variable {K F N S R : Type} [Field K] [LinearOrder K]

/-- With more than 250 stars an IndexError is raised exactly if more elements are asked for than there are
stars. -/
theorem many_index_error (c : Columns K) (gauss : Option (Img K → Img K)) (g : Eig K) (sh : ℕ × ℕ) (l : K) :
    buildBasis c false gauss g sh l = .error .IndexError ↔ c.n < klCut l g.vals := by
  unfold buildBasis rawBasis
  by_cases h : c.n < klCut l g.vals
  · simp only [Bool.false_eq_true, if_false, if_pos h]
    exact iff_of_true rfl h
  · simp only [Bool.false_eq_true, if_false, if_neg h]
    refine iff_of_false ?_ h
    intro q
    cases q

theorem build_basis_ok (c : Columns K) (hasM : Bool) (gauss : Option (Img K → Img K)) (g : Eig K) (sh : ℕ × ℕ)
    (l : K) (hP : sh.1 * sh.2 = c.P) (hcut : klCut l g.vals ≤ c.n) :
    ∃ b, buildBasis c hasM gauss g sh l = .ok b ∧ b.length = klCut l g.vals := by
  have hb : ∀ raw : List (Img K), raw.length = klCut l g.vals →
      (if (smoothed gauss raw).length = 1 then normHead (smoothed gauss raw) else smoothed gauss raw).length =
        klCut l g.vals := by
    intro raw hr
    have hs : (smoothed gauss raw).length = raw.length := by cases gauss <;> simp [smoothed]
    have hn : ∀ r : List (Img K), (normHead r).length = r.length := by rintro (_ | ⟨x, r⟩) <;> rfl
    split
    · rw [hn, hs, hr]
    · rw [hs, hr]
  have hl : ∀ f : ℕ → Img K, ((lastCols c.n (klCut l g.vals)).map f).reverse.length = klCut l g.vals := by
    intro f
    rw [List.length_reverse, List.length_map, lastCols_length, min_eq_left hcut]
  unfold buildBasis rawBasis
  cases hasM with
  | true =>
    rw [if_pos rfl, if_pos (Or.inr hP)]
    exact ⟨_, rfl, hb _ (hl _)⟩
  | false =>
    rw [if_neg (by simp), if_neg (by omega)]
    exact ⟨_, rfl, hb _ (hl _)⟩

omit [LinearOrder K] in
theorem db_columns_size (sh : ℕ × ℕ) (n : ℕ) (db : List Stamp) (c : Columns K)
    (h : dbColumns sh n db = some c) : c.P = sh.1 * sh.2 ∧ c.n = n := by
  unfold dbColumns at h
  split at h
  · injection h with h
    subst h
    exact ⟨rfl, rfl⟩
  · cases h

/-- C98: reading `kl_basis` for the first time returns, with up to 250 stars or with more, a basis with the
number of elements that the information loss asks for. -/
theorem kl_basis_returns [IsStrictOrderedRing K] (e : KEnv K F N S R) (s : PSFState K F N S R) (n : ℕ)
    (u : SIState) (c : Columns K) (g : Eig K)
    (hb : s.basis = none) (hg : s.eig = none) (hc : s.cov = none) (hm : s.mMat = none)
    (hn : nSources e.toEnv s.toSIState = (.ok n, u))
    (hd : dbColumns u.stampShape n (u.db.getD []) = some c)
    (hge : e.eigh (covOf c) = .ok g) (hv : g.vals.length = n) (h0 : ∃ v ∈ g.vals, v ≠ 0) (hl : 0 ≤ s.infLoss) :
    ∃ b t, klBasis e s = (.ok b, t) ∧ b.length = klCut s.infLoss g.vals ∧
      buildBasis c (decide (n ≤ 250)) (if s.smooth then some e.gauss else none) g u.stampShape s.infLoss =
        .ok b := by
  obtain ⟨hP, hcn⟩ := db_columns_size _ _ _ _ hd
  obtain ⟨b, hbb, hbl⟩ := build_basis_ok c (decide (n ≤ 250)) (if s.smooth then some e.gauss else none) g
    u.stampShape s.infLoss hP.symm (by rw [hcn, ← hv]; exact (kl_cut_range _ _ h0 hl).2)
  have hcov : covMatrix e s = (.ok (covOf c),
      { s with
        toSIState := u
        cov := some (covOf c)
        mMat := if n ≤ 250 then some c else none }) := by
    have hon : onSI (nSources e.toEnv) s = (.ok n, { s with toSIState := u }) := by
      unfold onSI; rw [hn]
    unfold covMatrix
    rw [get_bind, hc]
    simp only
    rw [bind_ok _ _ _ _ _ hon, get_bind, modify_bind, ← hm]
    simp only [hd]
    rfl
  obtain ⟨w, hw⟩ : ∃ w : PSFState K F N S R, w = { s with
    toSIState := u
    cov := some (covOf c)
    eig := some g
    mMat := if n ≤ 250 then some c else none } := ⟨_, rfl⟩
  have hev : eigenv e s = (.ok g, w) := by
    unfold eigenv
    rw [get_bind, hg]
    simp only
    rw [bind_ok _ _ _ _ _ hcov, hge, hw]
    rfl
  have hwc : w.columns = some c := by
    unfold PSFState.columns
    rw [hw]
    by_cases hk : n ≤ 250
    · simp only [if_pos hk]
    · simp only [if_neg hk, nSources_records _ _ _ _ hn, Option.getD_some, hd]
  have hwm : w.mMat.isSome = decide (n ≤ 250) := by
    rw [hw]
    by_cases hk : n ≤ 250
    · simp [hk]
    · simp [hk]
  have hws : w.smooth = s.smooth ∧ w.infLoss = s.infLoss ∧ w.stampShape = u.stampShape := by
    rw [hw]; exact ⟨rfl, rfl, rfl⟩
  have hbw : buildBasis c w.mMat.isSome (if w.smooth then some e.gauss else none) g w.stampShape w.infLoss =
      .ok b := by
    rw [hwm, hws.1, hws.2.1, hws.2.2]
    exact hbb
  have hsb : setupBasis e none s = (.ok (), { w with basis := some b }) := by
    unfold setupBasis
    rw [get_bind, if_pos (by rw [hb]; rfl), modify_bind]
    change (eigenv e >>= _) s = _
    rw [bind_ok _ _ _ _ _ hev, get_bind, hwc]
    simp only
    rw [hbw, bind_app]
    rfl
  refine ⟨b, { w with basis := some b }, ?_, hbl, hbb⟩
  unfold klBasis
  rw [get_bind, hb]
  simp only
  rw [bind_ok _ _ _ _ _ hsb, get_bind]
  rfl

/-- Libraries that find 300 eigenvalues. -/
def crowdEnv : KEnv ℚ (List ℚ) ℕ (ℚ × ℕ × ℕ) (ℚ × ℕ × ℕ) :=
  { demoEnv with eigh := fun _ => .ok ⟨List.replicate 300 1, fun s c => if s = c then 1 else 0⟩ }

/-- Three hundred stars of one-pixel stamps. -/
def crowdState : PSFState ℚ (List ℚ) ℕ (ℚ × ℕ × ℕ) (ℚ × ℕ × ℕ) :=
  { demoState with nSources := some 300, db := some (List.replicate 300 (.fin ⟨1, 1, fun _ _ => 1⟩)),
                   stampsPos := some (List.replicate 300 (5, 5)) }

theorem crowd_columns : ∃ c : Columns ℚ,
    dbColumns crowdState.stampShape 300 (crowdState.db.getD []) = some c := by
  unfold dbColumns
  rw [if_pos]
  · exact ⟨_, rfl⟩
  · intro k hk
    change (((List.replicate 300 (Stamp.fin ⟨1, 1, fun _ _ => 1⟩))[k]?).bind (stampImg (K := ℚ))).isSome = true
    rw [List.getElem?_replicate, if_pos hk]
    rfl

/-- Their basis is made. -/
example : ∃ b t, klBasis crowdEnv crowdState = (.ok b, t) ∧ 1 ≤ b.length := by
  obtain ⟨c, hc⟩ := crowd_columns
  have h0 : ∃ v ∈ (List.replicate 300 (1 : ℚ)), v ≠ 0 :=
    ⟨1, List.mem_replicate.2 ⟨by norm_num, rfl⟩, one_ne_zero⟩
  have hl : (0 : ℚ) ≤ crowdState.infLoss := by change (0 : ℚ) ≤ 1 / 2; norm_num
  obtain ⟨b, t, h, hb, _⟩ := kl_basis_returns crowdEnv crowdState 300 crowdState.toSIState c
    ⟨List.replicate 300 1, fun s c => if s = c then 1 else 0⟩ rfl rfl rfl rfl rfl hc rfl
    List.length_replicate h0 hl
  exact ⟨b, t, h, hb ▸ (kl_cut_range _ _ h0 hl).1⟩

end PI
