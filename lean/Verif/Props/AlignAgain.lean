import Verif.Model.AlignCoadd
import Verif.Props.RawArrays
import Verif.Props.Lifecycle

/-!
# Property C134: alignment of exposures that need none, and the masks
-/

namespace PI

/-- `astroalign.register(source, target, propagate_mask=True)` of exposures that are aligned already: pixels and mask are
returned as they are. -/
def KeepsMask (env : FrontEnv) : Prop := ∀ a ref, env.register a ref = .ok (a.data, a.maskArray)

/-- `astroalign.register(source, target)` of exposures that are aligned already: the pixels are returned as they are, with a
footprint that marks nothing. -/
def EmptyFootprint (env : FrontEnv) : Prop := ∀ a ref, env.register a ref = .ok (a.data, Img.const a.data.h a.data.w false)

/-- C12: the alignment returns exactly when there is a first image and every other one can be registered against it;
otherwise it raises what the earliest failing registration raises. -/
theorem align_for_coadd_returns {ω : Type} (reg : ω → ω → Py ω) (ref : ω) (rest : List ω) :
    ((∃ out, alignForCoadd reg (ref :: rest) = .ok out) ↔ ∀ a ∈ rest, ∃ o, reg a ref = .ok o) ∧
    (∀ e, alignForCoadd reg (ref :: rest) = .error e ↔
      ∃ pre a post, rest = pre ++ a :: post ∧ (∀ b ∈ pre, ∃ o, reg b ref = .ok o) ∧ reg a ref = .error e) := by
  have key : ∀ l : List ω, ((∃ ys, l.mapM (fun a => reg a ref) = .ok ys) ↔ ∀ a ∈ l, ∃ o, reg a ref = .ok o) ∧
      (∀ e, l.mapM (fun a => reg a ref) = .error e ↔
        ∃ pre a post, l = pre ++ a :: post ∧ (∀ b ∈ pre, ∃ o, reg b ref = .ok o) ∧ reg a ref = .error e) := by
    intro l
    induction l with
    | nil => exact ⟨⟨fun _ a h => (by cases h), fun _ => ⟨[], rfl⟩⟩, fun e => ⟨fun h => (by cases h), fun ⟨pre, a, post, h, _⟩ => by simp at h⟩⟩
    | cons x l ih =>
      obtain ⟨i1, i2⟩ := ih
      rw [List.mapM_cons]
      cases hx : reg x ref with
      | error e' =>
        refine ⟨⟨fun ⟨_, h⟩ => (by cases h), fun h => ?_⟩, fun e => ⟨fun h => ?_, ?_⟩⟩
        · obtain ⟨o, ho⟩ := h x (List.mem_cons_self ..)
          rw [hx] at ho; cases ho
        · cases h
          exact ⟨[], x, l, rfl, fun b hb => (by cases hb), hx⟩
        · rintro ⟨pre, a, post, h, hp, ha⟩
          cases pre with
          | nil =>
            cases h
            rw [hx] at ha
            cases ha; rfl
          | cons y pre =>
            cases h
            obtain ⟨o, ho⟩ := hp x (List.mem_cons_self ..)
            rw [hx] at ho; cases ho
      | ok o =>
        refine ⟨⟨fun ⟨ys, h⟩ => ?_, fun h => ?_⟩, fun e => ⟨fun h => ?_, ?_⟩⟩
        · cases hm : l.mapM (fun a => reg a ref) with
          | error e => rw [hm] at h; cases h
          | ok zs =>
            intro a ha
            rcases List.mem_cons.1 ha with rfl | ha
            · exact ⟨o, hx⟩
            · exact i1.1 ⟨zs, hm⟩ a ha
        · obtain ⟨ys, hy⟩ := i1.2 fun a ha => h a (List.mem_cons_of_mem _ ha)
          rw [hy]
          exact ⟨o :: ys, rfl⟩
        · cases hm : l.mapM (fun a => reg a ref) with
          | ok zs => rw [hm] at h; cases h
          | error e' =>
            rw [hm] at h
            cases h
            obtain ⟨pre, a, post, h1, h2, h3⟩ := (i2 e).1 hm
            refine ⟨x :: pre, a, post, by rw [h1]; rfl, fun b hb => ?_, h3⟩
            rcases List.mem_cons.1 hb with rfl | hb
            · exact ⟨o, hx⟩
            · exact h2 b hb
        · rintro ⟨pre, a, post, h, hp, ha⟩
          cases pre with
          | nil =>
            cases h
            rw [hx] at ha; cases ha
          | cons y pre =>
            cases h
            rw [(i2 e).2 ⟨pre, a, post, rfl, fun b hb => hp b (List.mem_cons_of_mem _ hb), ha⟩]
            rfl
  obtain ⟨k1, k2⟩ := key rest
  constructor
  · rw [← k1]
    change (∃ out, (rest.mapM fun a => reg a ref).map (ref :: ·) = .ok out) ↔ _
    cases rest.mapM (fun a => reg a ref) with
    | error e => exact ⟨fun ⟨_, h⟩ => (by cases h), fun ⟨_, h⟩ => by cases h⟩
    | ok ys => exact ⟨fun _ => ⟨ys, rfl⟩, fun _ => ⟨ref :: ys, rfl⟩⟩
  · intro e
    rw [← k2]
    change (rest.mapM fun a => reg a ref).map (ref :: ·) = .error e ↔ _
    cases rest.mapM (fun a => reg a ref) with
    | error e' => exact ⟨fun h => (by cases h; rfl), fun h => (by cases h; rfl)⟩
    | ok ys => exact ⟨fun h => (by cases h), fun h => by cases h⟩

/-- Of three images the second cannot be registered. -/
example :
    alignForCoadd (fun a r => if a = 5 then .error .ValueError else .ok (a + r)) [1, 5, 7] = .error .ValueError ∧
    alignForCoadd (fun a r => if a = 5 then .error .ValueError else .ok (a + r)) [5, 3, 7] = .ok [5, 8, 12] := by
  decide

/-- The aligned image has the pixels of the old one, and a mask grown from the old mask and the extreme pixels. -/
theorem registerOne_mask (env : FrontEnv) (hr : ∀ d, env.rest d = .ok ()) (hk : KeepsMask env) (d ref : MA) (hd : d.WF) :
    ∃ m : Img Bool, registerOne env d ref = .ok ⟨d.data, some m⟩ ∧ m.h = d.data.h ∧ m.w = d.data.w ∧
      (growPureN 7 (explicitBase d.data d.maskArray)).Same m := by
  obtain ⟨s1, s2⟩ := MA.maskArray_shape d hd
  obtain ⟨m, h1, h2⟩ := construct_array_mask d.data d.maskArray s1 s2
  refine ⟨m, ?_, h2⟩
  unfold registerOne
  rw [hk]
  change buildSI env (.array d.data) (.array d.maskArray) = _
  unfold buildSI
  rw [h1]
  simp only [bind, Except.bind, hr]
  rfl

/-- An image made of an array: after an alignment that does nothing its mask has grown fourteen times instead of seven. -/
theorem registerOne_array (env : FrontEnv) (hr : ∀ d, env.rest d = .ok ()) (hk : KeepsMask env) (a : Img FVal) (m : Img Bool)
    (h1 : m.h = a.h) (h2 : m.w = a.w) (hm : (growPureN 7 (badMap a)).Same m) (ref : MA) :
    ∃ m' : Img Bool, registerOne env ⟨a, some m⟩ ref = .ok ⟨a, some m'⟩ ∧ m'.h = a.h ∧ m'.w = a.w ∧
      (growPureN 14 (badMap a)).Same m' := by
  obtain ⟨m', e1, e2, e3, e4⟩ := registerOne_mask env hr hk ⟨a, some m⟩ ref (by intro x hx; cases hx; exact ⟨h1, h2⟩)
  refine ⟨m', e1, e2, e3, ?_⟩
  have hs : (growPureN 7 (badMap a)).Same (explicitBase a m) := by
    refine ⟨(growPureN_shape _ _).1, (growPureN_shape _ _).2, fun i hi j hj => ?_⟩
    change _ = (m.px i j || ((a.px i j).lt (-50) || (a.px i j).gt 65000))
    rw [← hm.2.2 i hi j hj]
    cases hx : ((a.px i j).lt (-50) || (a.px i j).gt 65000) with
    | false => rw [Bool.or_false]
    | true =>
      rw [Bool.or_true]
      refine growPureN_extensive _ _ _ _ ?_
      change (!(a.px i j).isFinite || ((a.px i j).lt (-50) || (a.px i j).gt 65000)) = true
      rw [hx, Bool.or_true]
  have g := growPureN_same 7 _ _ hs
  rw [← growPureN_add] at g
  refine ⟨g.1.trans e4.1, g.2.1.trans e4.2.1, fun i hi j hj => (g.2.2 i hi j hj).trans (e4.2.2 i (g.1 ▸ hi) j (g.2.1 ▸ hj))⟩

/-- The masks are those of the bad pixels of the arrays, grown `n` times. -/
def GrownFrom (n : ℕ) (a : Img FVal) (d : MA) : Prop :=
  d.data = a ∧ ∃ m : Img Bool, d.mask = some m ∧ m.h = a.h ∧ m.w = a.w ∧ (growPureN n (badMap a)).Same m

/-- **C134 (coadd).** Raw arrays in `coadd(align=True)` that are aligned already: the first image has the mask it would have
without alignment, grown seven times from its bad pixels, all the others have masks grown fourteen times. -/
theorem coadd_aligned_masks (env : FrontEnv) (hr : ∀ d, env.rest d = .ok ()) (hk : KeepsMask env) (a : Img FVal) (t : List (Img FVal)) :
    ∃ d ds, coaddAligned env ((a :: t).map Elem.raw) = .ok (d :: ds) ∧ GrownFrom 7 a d ∧ List.Forall₂ (GrownFrom 14) t ds := by
  choose f hf using fun a => buildSI_array env hr a
  have wl : ∀ l : List (Img FVal), wrapList (fun a => buildSI env (.array a) .absent) (l.map Elem.raw) =
      (l.map fun a => Elem.obj ⟨a, some (f a)⟩, .ok ()) := by
    intro l
    induction l with
    | nil => rfl
    | cons a t ih => simp only [List.map_cons, wrapList, (hf a).1, ih]
  have objs : ∀ l : List (Img FVal), ((l.map fun a => (Elem.obj ⟨a, some (f a)⟩ : Elem (Img FVal) MA)).filterMap Elem.object) = l.map fun a => (⟨a, some (f a)⟩ : MA) := by
    intro l
    induction l with
    | nil => rfl
    | cons a t ih => rw [List.map_cons, List.map_cons, ← ih]; rfl
  have reg : ∀ (l : List (Img FVal)) (ref : MA), ∃ ds, (l.map fun a => (⟨a, some (f a)⟩ : MA)).mapM (fun x => registerOne env x ref) = .ok ds ∧
      List.Forall₂ (GrownFrom 14) l ds := by
    intro l ref
    induction l with
    | nil => exact ⟨[], rfl, .nil⟩
    | cons a t ih =>
      obtain ⟨ds, e, g⟩ := ih
      obtain ⟨m', e1, e2, e3, e4⟩ := registerOne_array env hr hk a (f a) (hf a).2.1 (hf a).2.2.1 (hf a).2.2.2 ref
      refine ⟨⟨a, some m'⟩ :: ds, ?_, .cons ⟨rfl, m', rfl, e2, e3, e4⟩ g⟩
      rw [List.map_cons, List.mapM_cons, e1, e]
      rfl
  obtain ⟨ds, e, g⟩ := reg t ⟨a, some (f a)⟩
  refine ⟨⟨a, some (f a)⟩, ds, ?_, ⟨rfl, f a, rfl, (hf a).2⟩, g⟩
  unfold coaddAligned
  rw [wl]
  change alignForCoadd (registerOne env) (((a :: t).map fun a => (Elem.obj ⟨a, some (f a)⟩ : Elem (Img FVal) MA)).filterMap Elem.object) = _
  rw [objs]
  change alignForCoadd (registerOne env) (⟨a, some (f a)⟩ :: t.map fun a => (⟨a, some (f a)⟩ : MA)) = _
  change Except.map _ (List.mapM (fun x => registerOne env x ⟨a, some (f a)⟩) (t.map fun a => (⟨a, some (f a)⟩ : MA))) = _
  rw [e]
  rfl

/-- **C134 (coadd).** The mask of the result: the bad pixels of the first array grown seven times and those of the others grown
fourteen times. -/
theorem coadd_aligned_mask (env : FrontEnv) (hr : ∀ d, env.rest d = .ok ()) (hk : KeepsMask env) (a : Img FVal) (t : List (Img FVal))
    (h w : ℕ) (hs : ∀ b ∈ a :: t, b.h = h ∧ b.w = w) :
    ∃ ms, coaddAligned env ((a :: t).map Elem.raw) = .ok ms ∧
      ∀ (lt : List CoImg → List CoImg → Option Bool) (imgs : List CoImg) (psfShape : ℕ) (procs : ℤ),
        imgs.map (·.mask) = ms.map (·.mask) → (∀ im ∈ imgs, im.h = h ∧ im.w = w) →
        procs ≤ imgs.length → procs ≤ 2 ^ 25 → procs * imgs.length ≤ 2 ^ 50 →
        ∃ out, coaddCore lt imgs psfShape procs = .ok out ∧ ∀ i < h, ∀ j < w,
          (out.mask.marks i j = true ↔
            (growPureN 7 (badMap a)).px i j = true ∨ ∃ b ∈ t, (growPureN 14 (badMap b)).px i j = true) := by
  obtain ⟨d, ds, e, ⟨-, m, hm, m1, m2, m3⟩, g⟩ := coadd_aligned_masks env hr hk a t
  have marks : ∀ n b (x : Img Bool), b ∈ a :: t → (growPureN n (badMap b)).Same x → ∀ i < h, ∀ j < w,
      x.px i j = (growPureN n (badMap b)).px i j := by
    intro n b x hb hx i hi j hj
    obtain ⟨b1, b2⟩ := hs b hb
    exact (hx.2.2 i (by rw [(growPureN_shape _ _).1]; change i < b.h; omega) j
      (by rw [(growPureN_shape _ _).2]; change j < b.w; omega)).symm
  refine ⟨d :: ds, e, fun lt imgs psfShape procs hmask hshape p1 p2 p3 => ?_⟩
  have f1 : ∀ x ∈ ds, ∃ b ∈ t, GrownFrom 14 b x := by
    intro x hx
    obtain ⟨k, hk', rfl⟩ := List.getElem_of_mem hx
    have hl := g.length_eq
    exact ⟨t[k], List.getElem_mem _, (List.forall₂_iff_get.1 g).2 k (by omega) hk'⟩
  have f2 : ∀ b ∈ t, ∃ x ∈ ds, GrownFrom 14 b x := by
    intro b hb
    obtain ⟨k, hk', rfl⟩ := List.getElem_of_mem hb
    have hl := g.length_eq
    exact ⟨ds[k], List.getElem_mem _, (List.forall₂_iff_get.1 g).2 k hk' (by omega)⟩
  have mem : ∀ im ∈ imgs, im.mask = d.mask ∨ ∃ x ∈ ds, im.mask = x.mask := by
    intro im him
    have : im.mask ∈ imgs.map (·.mask) := List.mem_map_of_mem him
    rw [hmask, List.map_cons, List.mem_cons, List.mem_map] at this
    rcases this with h | ⟨x, hx, h⟩
    · exact Or.inl h
    · exact Or.inr ⟨x, hx, h.symm⟩
  have mem' : ∀ x ∈ d :: ds, ∃ im ∈ imgs, im.mask = x.mask := by
    intro x hx
    have : x.mask ∈ (d :: ds).map (·.mask) := List.mem_map_of_mem hx
    rw [← hmask] at this
    exact List.mem_map.1 this
  have hine : imgs ≠ [] := by
    intro h0
    rw [h0] at hmask
    cases hmask
  have ha := hs a List.mem_cons_self
  have hall : AllShape imgs h w := by
    intro im him
    refine ⟨(hshape im him).1, (hshape im him).2, ?_⟩
    intro x hx
    rcases mem im him with h0 | ⟨y, hy, h0⟩
    · rw [h0, hm] at hx
      cases hx
      exact ⟨m1.trans ha.1, m2.trans ha.2⟩
    · obtain ⟨b, hb, -, n, hn, n1, n2, -⟩ := f1 y hy
      rw [h0, hn] at hx
      cases hx
      have := hs b (List.mem_cons_of_mem _ hb)
      exact ⟨n1.trans this.1, n2.trans this.2⟩
  obtain ⟨out, eo, _, hu⟩ := coadd_spec lt h w imgs psfShape procs hine hall p1 p2 p3
  refine ⟨out, eo, fun i hi j hj => ?_⟩
  rw [hu.2.1 i hi j hj]
  constructor
  · rintro ⟨im, him, hb⟩
    rcases mem im him with h0 | ⟨y, hy, h0⟩
    · rw [h0, hm] at hb
      exact Or.inl (by rw [← marks 7 a m List.mem_cons_self m3 i hi j hj]; exact hb)
    · obtain ⟨b, hb', -, n, hn, -, -, n3⟩ := f1 y hy
      rw [h0, hn] at hb
      exact Or.inr ⟨b, hb', by rw [← marks 14 b n (List.mem_cons_of_mem _ hb') n3 i hi j hj]; exact hb⟩
  · rintro (hb | ⟨b, hb', hb⟩)
    · obtain ⟨im, him, e⟩ := mem' d List.mem_cons_self
      refine ⟨im, him, ?_⟩
      rw [e, hm]
      change m.px i j = true
      rw [marks 7 a m List.mem_cons_self m3 i hi j hj]
      exact hb
    · obtain ⟨y, hy, -, n, hn, -, -, n3⟩ := f2 b hb'
      obtain ⟨im, him, e⟩ := mem' y (List.mem_cons_of_mem _ hy)
      refine ⟨im, him, ?_⟩
      rw [e, hn]
      change n.px i j = true
      rw [marks 14 b n (List.mem_cons_of_mem _ hb') n3 i hi j hj]
      exact hb

/-! ## The order of the list -/

/-- An array with `k` saturated rows. -/
def saturated (h w k : ℕ) : Img FVal := ⟨h, w, fun i _ => if i < k then .pinf else .fin 100⟩

theorem saturated_bad (h w k : ℕ) : badMap (saturated h w k) = rowsBelow h w k := by
  unfold badMap saturated rowsBelow
  congr 1
  funext i j
  by_cases hk : i < k
  · simp [hk, FVal.isFinite]
  · simp [hk, FVal.isFinite, FVal.lt, FVal.gt]
    norm_num

theorem saturated_grown (h w k n : ℕ) (hk : 0 < k) (i j : ℕ) (hi : i < h) (hj : j < w) :
    (growPureN n (badMap (saturated h w k))).px i j = decide (i < k + n) := by
  rw [saturated_bad]
  exact (growPureN_rowsBelow n h w k hk).2.2 i (by rw [(growPureN_shape _ _).1]; exact hi) j (by rw [(growPureN_shape _ _).2]; exact hj)

theorem clean_grown (h w n : ℕ) (i j : ℕ) (hi : i < h) (hj : j < w) : (growPureN n (badMap (saturated h w 0))).px i j = false := by
  by_contra hc
  rw [Bool.not_eq_false] at hc
  obtain ⟨i', _, j', _, hb, _⟩ := growPureN_near n _ i j hi hj hc
  rw [saturated_bad] at hb
  simp [rowsBelow] at hb

/-- **C134 (order).** An exposure with `k` saturated rows and a clean one: the coadd masks `k + 7` rows if the damaged one comes
first in the list and `k + 14` if it comes second. -/
theorem coadd_order_mask (env : FrontEnv) (hr : ∀ d, env.rest d = .ok ()) (hk : KeepsMask env) (h w k : ℕ) (h0 : 0 < k) :
    ∃ ms ms', coaddAligned env [.raw (saturated h w k), .raw (saturated h w 0)] = .ok ms ∧
      coaddAligned env [.raw (saturated h w 0), .raw (saturated h w k)] = .ok ms' ∧
      ∀ (lt : List CoImg → List CoImg → Option Bool) (imgs imgs' : List CoImg) (psfShape : ℕ),
        imgs.map (·.mask) = ms.map (·.mask) → (∀ im ∈ imgs, im.h = h ∧ im.w = w) →
        imgs'.map (·.mask) = ms'.map (·.mask) → (∀ im ∈ imgs', im.h = h ∧ im.w = w) →
        ∃ out out', coaddCore lt imgs psfShape 1 = .ok out ∧ coaddCore lt imgs' psfShape 1 = .ok out' ∧ ∀ i < h, ∀ j < w,
          (out.mask.marks i j = true ↔ i < k + 7) ∧ (out'.mask.marks i j = true ↔ i < k + 14) := by
  obtain ⟨ms, e, H⟩ := coadd_aligned_mask env hr hk (saturated h w k) [saturated h w 0] h w (by
    intro b hb
    simp only [List.mem_cons, List.not_mem_nil, or_false] at hb
    rcases hb with rfl | rfl <;> exact ⟨rfl, rfl⟩)
  obtain ⟨ms', e', H'⟩ := coadd_aligned_mask env hr hk (saturated h w 0) [saturated h w k] h w (by
    intro b hb
    simp only [List.mem_cons, List.not_mem_nil, or_false] at hb
    rcases hb with rfl | rfl <;> exact ⟨rfl, rfl⟩)
  have two : ∀ (a : Img FVal) (b : Img FVal) ms, coaddAligned env ([a, b].map Elem.raw) = .ok ms → ms.length = 2 := by
    intro a b ms he
    obtain ⟨d, ds, e1, -, g⟩ := coadd_aligned_masks env hr hk a [b]
    have e2 := he.symm.trans e1
    cases e2
    rw [List.length_cons, ← g.length_eq]
    rfl
  have l1 := two _ _ _ e
  have l2 := two _ _ _ e'
  refine ⟨ms, ms', e, e', fun lt imgs imgs' psfShape q1 q2 q3 q4 => ?_⟩
  have n1 : imgs.length = 2 := by rw [← l1, ← List.length_map (·.mask), q1, List.length_map]
  have n2 : imgs'.length = 2 := by rw [← l2, ← List.length_map (·.mask), q3, List.length_map]
  obtain ⟨out, o1, o2⟩ := H lt imgs psfShape 1 q1 q2 (by rw [n1]; norm_num) (by norm_num) (by rw [n1]; norm_num)
  obtain ⟨out', o1', o2'⟩ := H' lt imgs' psfShape 1 q3 q4 (by rw [n2]; norm_num) (by norm_num) (by rw [n2]; norm_num)
  refine ⟨out, out', o1, o1', fun i hi j hj => ⟨?_, ?_⟩⟩
  · rw [o2 i hi j hj, saturated_grown h w k 7 h0 i j hi hj, decide_eq_true_eq]
    constructor
    · rintro (q | ⟨b, hb, q⟩)
      · exact q
      · rw [List.mem_singleton.1 hb, clean_grown h w 14 i j hi hj] at q
        cases q
    · exact Or.inl
  · rw [o2' i hi j hj, clean_grown h w 7 i j hi hj]
    constructor
    · rintro (q | ⟨b, hb, q⟩)
      · cases q
      · rw [List.mem_singleton.1 hb, saturated_grown h w k 14 h0 i j hi hj] at q
        exact of_decide_eq_true q
    · intro q
      exact Or.inr ⟨_, List.mem_singleton.2 rfl, by rw [saturated_grown h w k 14 h0 i j hi hj]; exact decide_eq_true q⟩

/-! ## subtract -/

/-- The extreme pixels alone. -/
def extremeMap (a : Img FVal) : Img Bool := ⟨a.h, a.w, fun i j => (a.px i j).lt (-50) || (a.px i j).gt 65000⟩

/-- **C134 (subtract).** `subtract(align=True)` on exposures that are aligned already: the mask of the result is that of the
reference and the grown extreme pixels of the new image; the mask the new image had is not used. -/
theorem subtract_aligned_mask (env : FrontEnv) (hr : ∀ d, env.rest d = .ok ()) (hk : EmptyFootprint env) (g g' : Bool) (fitted : Bool)
    (hg : fitted = true → g = true ∧ g' = true) (ref new : MA) (hs : new.data.shape = ref.data.shape) (wr : ref.WF) :
    ∃ n m, subtractFront env fitted true (.object g ref) (.object g' new) = .ok (ref, n, m) ∧ n.data.Same new.data ∧
      ∀ i < ref.data.h, ∀ j < ref.data.w,
        (m.marks i j = true ↔ ref.mask.marks i j = true ∨ (growPureN 7 (extremeMap new.data)).px i j = true) := by
  have s1 : new.data.h = ref.data.h := congrArg Prod.fst hs
  have s2 : new.data.w = ref.data.w := congrArg Prod.snd hs
  obtain ⟨a, h1, h2, h3, h4⟩ := front_align env hr ref new new.data _ (hk new ref) rfl rfl
  have w1 : ∀ (g : Bool) (d : MA), (fitted = true → g = true) → wrapArg env fitted (.object g d) = .ok d := by
    intro g d hg
    unfold wrapArg SubArg.isSI
    cases fitted with
    | false => rfl
    | true => rw [hg rfl]; rfl
  rw [s1, Nat.min_self] at h2
  rw [s2, Nat.min_self] at h3
  obtain ⟨m, e, _, hm, _⟩ := NMask.maskOr_spec (some a) ref.mask ref.data.h ref.data.w
    (by intro x hx; cases hx; exact ⟨h2, h3⟩) wr
  have c1 : (cutTo ref.data.h ref.data.w new.data).h = ref.data.h := by change min _ _ = _; omega
  have c2 : (cutTo ref.data.h ref.data.w new.data).w = ref.data.w := by change min _ _ = _; omega
  refine ⟨⟨cutTo ref.data.h ref.data.w new.data, some a⟩, m, ?_, ⟨c1.trans s1.symm, c2.trans s2.symm, fun _ _ _ _ => rfl⟩,
    fun i hi j hj => ?_⟩
  · rw [front_eq, w1 g ref (fun h => (hg h).1), w1 g' new (fun h => (hg h).2)]
    simp only [if_true, h1]
    rw [if_neg, e]
    intro h
    exact h (Prod.ext c1 c2)
  · rw [hm i hi j hj]
    change (a.px i j || _) = true ↔ _
    have hsame : (extremeMap new.data).Same (explicitBase (cutTo ref.data.h ref.data.w new.data)
        (Img.const new.data.h new.data.w false)) := by
      refine ⟨s1.trans c1.symm, s2.trans c2.symm, fun i hi j hj => ?_⟩
      rfl
    have e7 := growPureN_same 7 _ _ hsame
    have hi' : i < (growPureN 7 (extremeMap new.data)).h := by rw [(growPureN_shape _ _).1]; change i < new.data.h; omega
    have hj' : j < (growPureN 7 (extremeMap new.data)).w := by rw [(growPureN_shape _ _).2]; change j < new.data.w; omega
    rw [← h4.2.2 i (e7.1 ▸ hi') j (e7.2.1 ▸ hj'), ← e7.2.2 i hi' j hj', Bool.or_eq_true, or_comm]

/-- An array that is not a number everywhere. -/
def blank (h w : ℕ) : Img FVal := ⟨h, w, fun _ _ => .nan⟩

/-- **C134 (subtract).** A new image without one good pixel, subtracted from a clean reference: everything is masked without
alignment and nothing with it. -/
theorem blank_unmasked (env : FrontEnv) (hr : ∀ d, env.rest d = .ok ()) (hk : EmptyFootprint env) (h w : ℕ) :
    ∃ ref new r n m r' n' m', buildSI env (.array (saturated h w 0)) .absent = .ok ref ∧ buildSI env (.array (blank h w)) .absent = .ok new ∧
      subtractFront env false false (.object false ref) (.object false new) = .ok (r, n, m) ∧
      subtractFront env false true (.object false ref) (.object false new) = .ok (r', n', m') ∧
      ∀ i < h, ∀ j < w, m.marks i j = true ∧ m'.marks i j = false := by
  obtain ⟨mr, b1, b2, b3, b4⟩ := buildSI_array env hr (saturated h w 0)
  obtain ⟨mn, c1, c2, c3, c4⟩ := buildSI_array env hr (blank h w)
  have wr : (MA.mk (saturated h w 0) (some mr)).WF := by intro x hx; cases hx; exact ⟨b2, b3⟩
  obtain ⟨n', m', e', -, q'⟩ := subtract_aligned_mask env hr hk false false false (by intro h; cases h) ⟨saturated h w 0, some mr⟩
    ⟨blank h w, some mn⟩ rfl wr
  obtain ⟨m, e, _, hm, _⟩ := NMask.maskOr_spec (some mn) (some mr) h w (by intro x hx; cases hx; exact ⟨c2, c3⟩) wr
  refine ⟨_, _, ⟨saturated h w 0, some mr⟩, ⟨blank h w, some mn⟩, m, _, n', m', b1, c1, ?_, e', fun i hi j hj => ⟨?_, ?_⟩⟩
  · rw [front_eq]
    have wb : ∀ d : MA, wrapArg env false (.object false d) = .ok d := fun _ => rfl
    rw [wb, wb]
    simp only [Bool.false_eq_true, if_false]
    rw [if_neg (by intro h; exact h rfl), e]
  · rw [hm i hi j hj, Bool.or_eq_true]
    exact Or.inl ((array_mask_near _ mn c4 i j hi hj).1 trivial)
  · rw [← Bool.not_eq_true, q' i hi j hj]
    rintro (q | q)
    · obtain ⟨i', _, j', _, hb, _⟩ := (array_mask_near _ mr b4 i j hi hj).2 q
      rw [badPix_iff] at hb
      have : (badMap (saturated h w 0)).px i' j' = true := hb
      rw [saturated_bad] at this
      simp [rowsBelow] at this
    · obtain ⟨i', _, j', _, hb, _⟩ := growPureN_near 7 _ i j hi hj q
      change (FVal.lt (-50) .nan || FVal.gt 65000 .nan) = true at hb
      simp [FVal.lt, FVal.gt] at hb

/-- The contracts can be met. -/
example : KeepsMask ⟨fun _ => .ok (), fun a _ => .ok (a.data, a.maskArray)⟩ := fun _ _ => rfl
example : EmptyFootprint ⟨fun _ => .ok (), fun a _ => .ok (a.data, Img.const a.data.h a.data.w false)⟩ := fun _ _ => rfl

end PI
