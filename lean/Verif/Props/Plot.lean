import Verif.Model.Plot
import Mathlib.Data.Nat.PrimeFin
import Mathlib.Data.List.Sort
import Mathlib.Data.List.GetD
import Mathlib.Tactic.Linarith
import Mathlib.Tactic.NormNum
import Mathlib.Tactic.IntervalCases

/-!
# The plots (C62-C64)
-/

namespace PI

/-! ## `primes` -/

theorem mem_properDivisors' (n d : ℕ) : d ∈ properDivisors' n ↔ 2 ≤ d ∧ d ≤ n / 2 ∧ d ∣ n := by
  unfold properDivisors'
  rw [List.mem_filter, List.mem_range'_1, beq_iff_eq, ← Nat.dvd_iff_mod_eq_zero]
  constructor
  · rintro ⟨⟨h1, h2⟩, h3⟩; exact ⟨h1, by omega, h3⟩
  · rintro ⟨h1, h2, h3⟩; exact ⟨⟨h1, by omega⟩, h3⟩

/-- The list of `primes`: the prime factors that are not larger than half of the number. -/
theorem mem_prims (n d : ℕ) : d ∈ prims n ↔ d.Prime ∧ d ∣ n ∧ d ≤ n / 2 := by
  unfold prims
  rw [List.mem_filter, mem_properDivisors', List.all_eq_true]
  constructor
  · rintro ⟨⟨h1, h2, h3⟩, h4⟩
    refine ⟨?_, h3, h2⟩
    rw [Nat.prime_def_minFac]
    refine ⟨h1, ?_⟩
    by_contra hne
    have hm := h4 d.minFac (by
      rw [List.mem_filter, mem_properDivisors']
      refine ⟨⟨(Nat.minFac_prime (by omega)).two_le, ?_, (Nat.minFac_dvd d).trans h3⟩, by simpa using hne⟩
      exact (Nat.minFac_le (by omega)).trans h2)
    simp only [bne_iff_ne, ne_eq] at hm
    exact hm (Nat.mod_eq_zero_of_dvd (Nat.minFac_dvd d))
  · rintro ⟨h1, h2, h3⟩
    refine ⟨⟨h1.two_le, h3, h2⟩, fun od hod => ?_⟩
    rw [List.mem_filter, mem_properDivisors'] at hod
    obtain ⟨⟨h4, -, -⟩, h5⟩ := hod
    simp only [bne_iff_ne, ne_eq] at h5 ⊢
    intro h6
    rcases (Nat.dvd_prime h1).mp (Nat.dvd_of_mod_eq_zero h6) with h | h
    · omega
    · exact h5 h

theorem prims_sorted (n : ℕ) : (prims n).Pairwise (· < ·) := by
  unfold prims properDivisors'
  exact ((List.pairwise_lt_range' (s := 2) (n := n / 2 + 1 - 2)).filter _).filter _

theorem composite_half {n p : ℕ} (hn : 2 ≤ n) (hc : ¬ n.Prime) (hp : p.Prime) (hd : p ∣ n) : p ≤ n / 2 := by
  obtain ⟨k, hk⟩ := hd
  have hk2 : 2 ≤ k := by
    rcases k with _ | _ | k
    · omega
    · exfalso; apply hc; rw [hk]; simpa using hp
    · omega
  rw [Nat.le_div_iff_mul_le (by norm_num), hk]
  exact Nat.mul_le_mul_left p hk2

theorem mem_prims_composite (n d : ℕ) (hn : 2 ≤ n) (hc : ¬ n.Prime) : d ∈ prims n ↔ d ∈ n.primeFactors := by
  rw [mem_prims n d, Nat.mem_primeFactors]
  constructor
  · rintro ⟨h1, h2, -⟩; exact ⟨h1, h2, by omega⟩
  · rintro ⟨h1, h2, -⟩; exact ⟨h1, h2, composite_half hn hc h1 h2⟩

theorem prims_length (n : ℕ) (hn : 2 ≤ n) (hc : ¬ n.Prime) : (prims n).length = n.primeFactors.card := by
  have hnd : (prims n).Nodup := (prims_sorted n).imp (fun h => Nat.ne_of_lt h)
  rw [← List.toFinset_card_of_nodup hnd]
  congr 1
  ext d
  rw [List.mem_toFinset, mem_prims_composite n d hn hc]

theorem prims_trivial (n : ℕ) (h : n < 2 ∨ n.Prime) : prims n = [] := by
  rw [List.eq_nil_iff_forall_not_mem]
  intro d hd
  rw [mem_prims n d] at hd
  obtain ⟨h1, h2, h3⟩ := hd
  have := h1.two_le
  rcases h with h | h
  · omega
  · rcases (Nat.dvd_prime h).mp h2 with h4 | h4 <;> omega

theorem foldr_max_mem (l : List ℕ) (h : l ≠ []) : l.foldr max 0 ∈ l := by
  induction l with
  | nil => exact absurd rfl h
  | cons a l ih =>
    rw [List.foldr_cons]
    rcases Nat.le_total a (l.foldr max 0) with h1 | h1
    · rw [max_eq_right h1]
      cases l with
      | nil =>
        simp only [List.foldr_nil, Nat.le_zero] at h1
        simp [h1]
      | cons b l => exact List.mem_cons_of_mem _ (ih (by simp))
    · rw [max_eq_left h1]; exact List.mem_cons_self

theorem le_foldr_max (l : List ℕ) (a : ℕ) (h : a ∈ l) : a ≤ l.foldr max 0 := by
  induction l with
  | nil => cases h
  | cons b l ih =>
    rw [List.foldr_cons]
    rcases List.mem_cons.mp h with h | h
    · rw [h]; exact le_max_left _ _
    · exact (ih h).trans (le_max_right _ _)

/-- C62: `primes(n)` is `n` for a prime and for `n < 2`. -/
theorem primes_prime (n : ℕ) (h : n < 2 ∨ n.Prime) : primesPy n = n := by
  unfold primesPy
  rw [prims_trivial n h]
  rfl

/-- C62: for a composite number with at most three distinct prime factors it is the largest of them. -/
theorem primes_few (n : ℕ) (hn : 2 ≤ n) (hc : ¬ n.Prime) (h : n.primeFactors.card < 4) :
    primesPy n ∈ n.primeFactors ∧ ∀ q ∈ n.primeFactors, q ≤ primesPy n := by
  have hl := prims_length n hn hc
  have hne : prims n ≠ [] := by
    intro h0
    have := (mem_prims_composite n n.minFac hn hc).mpr
      (Nat.mem_primeFactors.mpr ⟨Nat.minFac_prime (by omega), Nat.minFac_dvd n, by omega⟩)
    rw [h0] at this; cases this
  have he : primesPy n = (prims n).foldr max 0 := by
    unfold primesPy
    rw [if_neg (by omega), if_neg (by rwa [Ne, ← List.length_eq_zero_iff] at hne)]
  rw [he]
  refine ⟨(mem_prims_composite n _ hn hc).mp (foldr_max_mem _ hne), fun q hq => ?_⟩
  exact le_foldr_max _ _ ((mem_prims_composite n q hn hc).mpr hq)

/-- C62: with four or more distinct prime factors it is the product of the two largest. -/
theorem primes_many (n : ℕ) (h : 4 ≤ n.primeFactors.card) :
    ∃ p ∈ n.primeFactors, ∃ q ∈ n.primeFactors, q < p ∧ (∀ r ∈ n.primeFactors, r = p ∨ r ≤ q) ∧
      primesPy n = p * q := by
  have hn : 2 ≤ n := by
    by_contra hlt
    have : n = 0 ∨ n = 1 := by omega
    rcases this with rfl | rfl <;> simp at h
  have hc : ¬ n.Prime := by
    intro hp
    rw [hp.primeFactors, Finset.card_singleton] at h; omega
  have hl := prims_length n hn hc
  have hs := prims_sorted n
  have h1 : (prims n).length - 1 < (prims n).length := by omega
  have h2 : (prims n).length - 2 < (prims n).length := by omega
  refine ⟨(prims n)[(prims n).length - 1], (mem_prims_composite n _ hn hc).mp (List.getElem_mem h1),
    (prims n)[(prims n).length - 2], (mem_prims_composite n _ hn hc).mp (List.getElem_mem h2), ?_, ?_, ?_⟩
  · exact List.pairwise_iff_getElem.mp hs _ _ h2 h1 (by omega)
  · intro r hr
    obtain ⟨k, hk, rfl⟩ := List.getElem_of_mem ((mem_prims_composite n r hn hc).mpr hr)
    rcases Nat.lt_trichotomy k ((prims n).length - 2) with hlt | heq | hgt
    · exact Or.inr (List.pairwise_iff_getElem.mp hs _ _ hk h2 hlt).le
    · subst heq; exact Or.inr le_rfl
    · have : k = (prims n).length - 1 := by omega
      subst this; exact Or.inl rfl
  · unfold primesPy
    rw [if_pos (by omega), List.getD_eq_getElem _ _ h1, List.getD_eq_getElem _ _ h2]

/-- C62: the result always divides the number. -/
theorem primes_dvd (n : ℕ) : primesPy n ∣ n := by
  by_cases h : n < 2 ∨ n.Prime
  · rw [primes_prime n h]
  · rw [not_or] at h
    have hn : 2 ≤ n := by omega
    by_cases h4 : n.primeFactors.card < 4
    · exact Nat.dvd_of_mem_primeFactors (primes_few n hn h.2 h4).1
    · obtain ⟨p, hp, q, hq, hlt, -, he⟩ := primes_many n (by omega)
      rw [he]
      refine Nat.Coprime.mul_dvd_of_dvd_of_dvd ?_ (Nat.dvd_of_mem_primeFactors hp) (Nat.dvd_of_mem_primeFactors hq)
      exact (Nat.coprime_primes (Nat.prime_of_mem_primeFactors hp) (Nat.prime_of_mem_primeFactors hq)).mpr (by omega)

/-- C62: it is `n` itself only for primes and `n < 2`. -/
theorem primes_eq_self_iff (n : ℕ) : primesPy n = n ↔ n < 2 ∨ n.Prime := by
  refine ⟨fun he => ?_, primes_prime n⟩
  by_contra h
  rw [not_or] at h
  by_cases h4 : n.primeFactors.card < 4
  · have := (primes_few n (by omega) h.2 h4).1
    rw [he] at this
    exact h.2 (Nat.prime_of_mem_primeFactors this)
  · obtain ⟨p, hp, q, hq, hlt, -, hpq⟩ := primes_many n (by omega)
    obtain ⟨r, hr, hrn⟩ : ∃ r ∈ n.primeFactors, r ∉ ({p, q} : Finset ℕ) := by
      by_contra hno
      have hsub : n.primeFactors ⊆ {p, q} := by
        intro r hr
        by_contra hrn
        exact hno ⟨r, hr, hrn⟩
      have h1 := Finset.card_le_card hsub
      have h2 := Finset.card_le_two (a := p) (b := q)
      omega
    rw [Finset.mem_insert, Finset.mem_singleton, not_or] at hrn
    have pp := Nat.prime_of_mem_primeFactors hp
    have pq := Nat.prime_of_mem_primeFactors hq
    have pr := Nat.prime_of_mem_primeFactors hr
    have hco : Nat.Coprime (p * q) r := Nat.Coprime.mul_left
      ((Nat.coprime_primes pp pr).mpr (Ne.symm hrn.1)) ((Nat.coprime_primes pq pr).mpr (Ne.symm hrn.2))
    have hd := Nat.Coprime.mul_dvd_of_dvd_of_dvd hco (hpq ▸ primes_dvd n) (Nat.dvd_of_mem_primeFactors hr)
    rw [← hpq, he] at hd
    have hle := Nat.le_of_dvd (by omega) hd
    have := Nat.mul_le_mul_left n pr.two_le
    omega

example : primesPy 12 = 3 ∧ primesPy 13 = 13 ∧ primesPy 210 = 35 ∧ primesPy 1 = 1 := by decide +kernel

/-! ## Grids -/

theorem roundReal_sqrt (N : ℕ) : roundReal (Real.sqrt N + 1) = roundReal (Real.sqrt N) + 1 ∧
    0 ≤ roundReal (Real.sqrt N) ∧ (N : ℤ) ≤ roundReal (Real.sqrt N) * (roundReal (Real.sqrt N) + 1) := by
  have h0 := Real.sqrt_nonneg (N : ℝ)
  have hsq : Real.sqrt N * Real.sqrt N = N := Real.mul_self_sqrt (Nat.cast_nonneg N)
  have hf0 : 0 ≤ ⌊Real.sqrt N⌋ := Int.floor_nonneg.mpr h0
  have hf1 := Int.floor_le (Real.sqrt N)
  have hf2 := Int.lt_floor_add_one (Real.sqrt N)
  have hfl : ⌊Real.sqrt N + 1⌋ = ⌊Real.sqrt N⌋ + 1 := Int.floor_add_one _
  unfold roundReal
  rw [hfl]
  simp only []
  generalize ⌊Real.sqrt N⌋ = f at *
  generalize Real.sqrt (N : ℝ) = x at *
  have hf0' : (0 : ℝ) ≤ f := by exact_mod_cast hf0
  have e : x + 1 - ((f + 1 : ℤ) : ℝ) = x - f := by push_cast; ring
  rw [e]
  by_cases h1 : x - f < 1 / 2
  · rw [if_pos h1, if_pos h1]
    refine ⟨rfl, hf0, ?_⟩
    have : (N : ℝ) < f * (f + 1) + 1 := by nlinarith
    have h2 : (N : ℤ) < f * (f + 1) + 1 := by exact_mod_cast this
    omega
  · rw [if_neg h1, if_neg h1]
    by_cases h2 : 1 / 2 < x - f
    · rw [if_pos h2, if_pos h2]
      refine ⟨rfl, by omega, ?_⟩
      have : (N : ℝ) < (f + 1) * (f + 1 + 1) + 1 := by nlinarith
      have h3 : (N : ℤ) < (f + 1) * (f + 1 + 1) + 1 := by exact_mod_cast this
      omega
    · exfalso
      have h3 : x = f + 1 / 2 := by linarith
      rw [h3] at hsq
      have h4 : (4 * N : ℝ) = 4 * (f * f + f) + 1 := by linarith
      have h5 : (4 * N : ℤ) = 4 * (f * f + f) + 1 := by exact_mod_cast h4
      omega

/-- C63: the grid for `N ≥ 1` panels has positive numbers of rows and columns and at least `N` cells. -/
theorem grid_room (N : ℕ) (hN : 1 ≤ N) :
    0 < (autopsfGrid N).1 ∧ 0 < (autopsfGrid N).2 ∧ (N : ℤ) ≤ (autopsfGrid N).1 * (autopsfGrid N).2 := by
  unfold autopsfGrid
  by_cases h3 : N = 3
  · simp [h3]
  simp only [if_neg h3]
  by_cases hp : primesPy N = N
  · rw [if_pos hp]
    obtain ⟨h1, h2, h4⟩ := roundReal_sqrt N
    simp only [h1]
    have hpos : 0 < roundReal (Real.sqrt N) := by
      rcases h2.lt_or_eq with h | h
      · exact h
      · rw [← h] at h4; simp at h4; omega
    exact ⟨hpos, by omega, h4⟩
  · rw [if_neg hp]
    have hd := primes_dvd N
    have h0 : 0 < primesPy N := Nat.pos_of_dvd_of_pos hd (by omega)
    have hmod : N % primesPy N = 0 := Nat.mod_eq_zero_of_dvd hd
    have hdiv : N / primesPy N * primesPy N = N := Nat.div_mul_cancel hd
    simp only [hmod, add_zero]
    refine ⟨?_, by exact_mod_cast h0, ?_⟩
    · have : 0 < N / primesPy N := Nat.div_pos (Nat.le_of_dvd (by omega) hd) h0
      exact_mod_cast this
    · have : N ≤ N / primesPy N * primesPy N := hdiv.ge
      exact_mod_cast this

/-- C63: the grid of a number with two or more prime factors (with multiplicity) is filled exactly. -/
theorem grid_exact (N : ℕ) (hN : 2 ≤ N) (hc : ¬ N.Prime) :
    (autopsfGrid N).1 * (autopsfGrid N).2 = N := by
  have h3 : N ≠ 3 := by rintro rfl; exact hc Nat.prime_three
  have hp : primesPy N ≠ N := by
    rw [Ne, primes_eq_self_iff]; rintro (h | h)
    · omega
    · exact hc h
  unfold autopsfGrid
  simp only [if_neg h3, if_neg hp]
  have hd := primes_dvd N
  rw [Nat.mod_eq_zero_of_dvd hd, add_zero]
  exact_mod_cast Nat.div_mul_cancel hd

/-- C63: one element gets a 1 × 2 grid (one panel stays empty), two get 1 × 2, three get 1 × 3. -/
theorem grid_small : autopsfGrid 1 = (1, 2) ∧ autopsfGrid 2 = (1, 2) ∧ autopsfGrid 3 = (1, 3) := by
  have r1 : roundReal (Real.sqrt (1 : ℕ)) = 1 := by
    unfold roundReal
    simp
  have r2 : roundReal (Real.sqrt (2 : ℕ)) = 1 := by
    have h1 : (1 : ℝ) ≤ Real.sqrt 2 := Real.le_sqrt' (by norm_num) |>.mpr (by norm_num)
    have h2 : Real.sqrt 2 < 3 / 2 := (Real.sqrt_lt' (by norm_num)).mpr (by norm_num)
    have hf : ⌊Real.sqrt 2⌋ = 1 := by
      rw [Int.floor_eq_iff]; push_cast; exact ⟨h1, by linarith⟩
    unfold roundReal
    push_cast
    rw [hf, if_pos (by push_cast; linarith)]
  refine ⟨?_, ?_, ?_⟩
  · unfold autopsfGrid
    simp only [show primesPy 1 = 1 by decide +kernel, if_true]
    rw [(roundReal_sqrt 1).1, r1]; rfl
  · unfold autopsfGrid
    simp only [show primesPy 2 = 2 by decide +kernel, if_true]
    rw [(roundReal_sqrt 2).1, r2]; rfl
  · unfold autopsfGrid; rfl

theorem coefGrid_eq (N : ℕ) : coefGrid N = autopsfGrid N := rfl

theorem axesOf_default (N : ℕ) (hN : 1 ≤ N) :
    ∃ size, axesOf (autopsfGrid N) .default = .ok size ∧ N ≤ size := by
  obtain ⟨h1, h2, h3⟩ := grid_room N hN
  refine ⟨_, if_neg (by omega), by omega⟩

theorem zip_range_map {α β : Type} (l : List α) (n : ℕ) (h : l.length ≤ n) (f : α → ℕ → β) :
    ((l.zip (List.range n)).map fun p => f p.1 p.2) = (List.range l.length).zipWith (fun k a => f a k) l := by
  refine List.ext_getElem (by simp; omega) fun k h1 h2 => ?_
  simp

/-- C63: with default axes `autopsf` of a square basis draws each element once, element `k` in axes `k`,
without error. -/
theorem autopsf_default {K : Type} (basis : List (Img K)) (hb : basis ≠ []) (iso : Bool)
    (isoKw : Option String) (hsq : ∀ b ∈ basis, b.h = b.w) :
    autopsf basis .default iso isoKw = .ok ((List.range basis.length).zipWith
      (fun k b => ⟨k, b, if iso then some fixedIso else none⟩) basis) := by
  have hl : 1 ≤ basis.length := List.length_pos_iff.mpr hb
  obtain ⟨size, h1, h2⟩ := axesOf_default basis.length hl
  unfold autopsf
  rw [h1]
  show (checkAxes _ _ size >>= _) = _
  rw [checkAxes, if_neg (by omega)]
  show (match basis with | [] => _ | b :: _ => _) = _
  cases basis with
  | nil => exact absurd rfl hb
  | cons b l =>
    have := hsq b List.mem_cons_self
    simp only [this, bne_self_eq_false, Bool.and_false, Bool.false_eq_true, if_false]
    rw [zip_range_map (b :: l) size h2 (fun p k => (⟨k, p, if iso then some fixedIso else none⟩ : Panel (Img K)))]

/-- C63: contours need a square PSF: with `iso=True` an oblong basis raises a TypeError. -/
theorem autopsf_iso_oblong {K : Type} (b : Img K) (l : List (Img K)) (isoKw : Option String) (h : b.h ≠ b.w) :
    autopsf (b :: l) .default true isoKw = .error .TypeError := by
  obtain ⟨size, h1, h2⟩ := axesOf_default (b :: l).length (by simp)
  unfold autopsf
  rw [h1]
  show (checkAxes _ _ size >>= _) = _
  rw [checkAxes, if_neg (by omega)]
  show (if (true && b.h != b.w) = true then _ else _) = _
  rw [if_pos (by simpa using h)]

/-- C63: the user's contour options have no effect. -/
theorem autopsf_iso_kw {K : Type} (basis : List (Img K)) (axs : AxsArg) (iso : Bool)
    (u v : Option String) : autopsf basis axs iso u = autopsf basis axs iso v := rfl

/-- C63: with given axes, too few of them raise: a ValueError for an array, a TypeError for a single axes. -/
theorem autopsf_given {K : Type} (basis : List (Img K)) (hb : basis ≠ []) (iso : Bool) (u : Option String)
    (hsq : ∀ b ∈ basis, b.h = b.w) :
    (∀ n, autopsf basis (.array n) iso u = .error .ValueError ↔ n < basis.length) ∧
    (autopsf basis .single iso u = .error .TypeError ↔ 1 < basis.length) ∧
    (∀ n ≥ basis.length, autopsf basis (.array n) iso u = autopsf basis .default iso u) := by
  obtain ⟨size, h1, h2⟩ := axesOf_default basis.length (List.length_pos_iff.mpr hb)
  have hr : ∀ (axs : AxsArg) (m : ℕ), axesOf (autopsfGrid basis.length) axs = .ok m → basis.length ≤ m →
      autopsf basis axs iso u = .ok ((List.range basis.length).zipWith
        (fun k b => ⟨k, b, if iso then some fixedIso else none⟩) basis) := by
    intro axs m he hm
    unfold autopsf
    rw [he]
    show (checkAxes _ _ m >>= _) = _
    rw [checkAxes, if_neg (by omega)]
    cases basis with
    | nil => exact absurd rfl hb
    | cons b l =>
      have := hsq b List.mem_cons_self
      show (if (iso && b.h != b.w) = true then _ else _) = _
      simp only [this, bne_self_eq_false, Bool.and_false, Bool.false_eq_true, if_false]
      rw [zip_range_map (b :: l) m hm (fun p k => (⟨k, p, if iso then some fixedIso else none⟩ : Panel (Img K)))]
  have hbad : ∀ (axs : AxsArg) (m : ℕ), axesOf (autopsfGrid basis.length) axs = .ok m → m < basis.length →
      autopsf basis axs iso u = (checkAxes basis.length axs m).bind fun _ => .error .ValueError := by
    intro axs m he hm
    unfold autopsf
    rw [he]
    show (checkAxes _ _ m >>= _) = _
    rw [checkAxes, if_pos hm]
    cases axs <;> rfl
  refine ⟨fun n => ?_, ?_, fun n hn => ?_⟩
  · rcases Nat.lt_or_ge n basis.length with h | h
    · rw [hbad (.array n) n rfl h, checkAxes, if_pos h]
      exact ⟨fun _ => h, fun _ => rfl⟩
    · rw [hr (.array n) n rfl h]
      exact ⟨fun h' => (by cases h'), fun h' => by omega⟩
  · rcases Nat.lt_or_ge 1 basis.length with h | h
    · rw [hbad .single 1 rfl h, checkAxes, if_pos h]
      exact ⟨fun _ => h, fun _ => rfl⟩
    · rw [hr .single 1 rfl h]
      exact ⟨fun h' => (by cases h'), fun h' => by omega⟩
  · rw [hr (.array n) n rfl hn, hr .default size h1 h2]

theorem mapM_ok_of {α β : Type} (l : List α) (f : α → Py β) (g : α → β) (h : ∀ a ∈ l, f a = .ok (g a)) :
    l.mapM f = .ok (l.map g) := by
  induction l with
  | nil => rfl
  | cons a l ih =>
    rw [List.mapM_cons, h a List.mem_cons_self, ih fun x hx => h x (List.mem_cons_of_mem _ hx)]
    rfl

/-- C63: with default axes `autopsf_coef` of a variable PSF draws each field once, in order. -/
theorem coef_default {F : Type} (fields : List F) (hf : fields ≠ []) :
    autopsfCoef (fields.map some) .default = .ok ((List.range fields.length).zipWith
      (fun k f => ⟨k, f, none⟩) fields) := by
  have hl : 1 ≤ fields.length := List.length_pos_iff.mpr hf
  obtain ⟨size, h1, h2⟩ := axesOf_default fields.length hl
  unfold autopsfCoef
  split
  · rename_i h
    cases fields with
    | nil => exact absurd rfl hf
    | cons a l => cases h
  rw [List.length_map, coefGrid_eq, h1]
  show (checkAxes _ _ size >>= _) = _
  rw [checkAxes, if_neg (by omega)]
  show List.mapM _ _ = _
  have hz : (fields.map some).zip (List.range size) = (fields.zip (List.range size)).map fun p => (some p.1, p.2) := by
    rw [List.zip_map_left]; rfl
  rw [hz, List.mapM_map, mapM_ok_of (fields.zip (List.range size)) (coefPanel ∘ fun p => (some p.1, p.2))
      (fun p => (⟨p.2, p.1, none⟩ : Panel F)) (fun _ _ => rfl), zip_range_map fields size h2 (fun f k => (⟨k, f, none⟩ : Panel F))]

/-- C63: for a constant PSF there are no coefficients to plot. -/
theorem coef_constant {F : Type} (axs : AxsArg) :
    autopsfCoef ([none] : List (Option F)) axs = .error .NoDataToPlot := rfl

/-! ## Dispatch -/

/-- C64: `plot(name)` runs `imshow` for None and for 'imshow', and the two PSF plots for their names. -/
theorem plot_ok_iff (special : String → Option PlotAttr) (name : Option String) (m : PlotAttr) :
    plotCall special name = .ok m ↔
      (name = none ∧ m = .imshow) ∨ (name = some "imshow" ∧ m = .imshow) ∨
      (name = some "autopsf" ∧ m = .autopsf) ∨ (name = some "autopsf_coef" ∧ m = .autopsfCoef) := by
  cases name with
  | none =>
    rw [show plotCall special none = .ok .imshow by
      have : plotAttr special "imshow" = some .imshow := by
        unfold plotAttr
        rw [show isPrivate "imshow" = false by decide]
        rfl
      simp [plotCall, this]]
    constructor
    · intro h; cases h; exact Or.inl ⟨rfl, rfl⟩
    · rintro (⟨-, rfl⟩ | ⟨h, -⟩ | ⟨h, -⟩ | ⟨h, -⟩)
      · rfl
      all_goals cases h
  | some p =>
    unfold plotCall
    by_cases hs : isPrivate p = true
    · simp only [hs, Bool.true_or, if_true]
      constructor
      · intro h; cases h
      · rintro (⟨h, -⟩ | ⟨h, -⟩ | ⟨h, -⟩ | ⟨h, -⟩)
        · cases h
        all_goals cases h; exact absurd hs (by decide)
    · rw [Bool.not_eq_true] at hs
      have hattr : ∀ q : String, isPrivate q = false → plotAttr special q = publicAttr q := by
        intro q hq; unfold plotAttr; rw [hq]; rfl
      simp only [hs, Bool.false_or, hattr p hs]
      by_cases he : p = ""
      · subst he
        rw [show publicAttr "" = none by decide]
        simp
      simp only [he, if_false, hattr p hs]
      unfold publicAttr
      by_cases h1 : p = "DEFAULT_PLOT" ∨ p = "si"
      · simp only [h1, if_true]
        rcases h1 with rfl | rfl <;> simp
      simp only [h1, if_false]
      by_cases h2 : p = "imshow"
      · subst h2; simp [eq_comm]
      by_cases h3 : p = "autopsf"
      · subst h3; simp [eq_comm]
      by_cases h4 : p = "autopsf_coef"
      · subst h4; simp [eq_comm]
      simp [h2, h3, h4]

/-- C64: every other string raises a ValueError. -/
theorem plot_other (special : String → Option PlotAttr) (p : String) (h1 : p ≠ "imshow")
    (h2 : p ≠ "autopsf") (h3 : p ≠ "autopsf_coef") : plotCall special (some p) = .error .ValueError := by
  unfold plotCall
  by_cases hs : isPrivate p = true
  · simp [hs]
  · rw [Bool.not_eq_true] at hs
    have hattr : plotAttr special p = publicAttr p := by unfold plotAttr; rw [hs]; rfl
    simp only [hs, Bool.false_or, hattr]
    unfold publicAttr
    by_cases h : p = "DEFAULT_PLOT" ∨ p = "si"
    · rcases h with rfl | rfl <;> simp [plotAttr, publicAttr, hs]
    · simp [h, h1, h2, h3]

example : plotCall (fun _ => some .imshow) (some "si") = .error .ValueError :=
  plot_other _ _ (by decide) (by decide) (by decide)

end PI
