import Verif.Tube.TreeModel
import Verif.Tube.Locate

/-! # The tree synthesis: structure and values -/

set_option linter.unusedSectionVars false

namespace Codac
section
variable {K : Type*} [LinearOrder K]

/-- tiling, for lists of slices -/
def STiles (a : K) : List (Slice K) → K → Prop
  | [], b => a = b
  | s :: ss, b => s.lb = a ∧ s.lb < s.ub ∧ STiles s.ub ss b

theorem Tiles.stiles {a b : K} {g : Itv K} {cs : List (Cell K)} (h : Tiles a cs b) : STiles a (slicesFrom g cs) b := by
  induction cs generalizing a g with
  | nil => exact h
  | cons c cs ih => exact ⟨h.1, h.2.1, ih h.2.2⟩

theorem STiles.le {a b : K} {ss : List (Slice K)} (h : STiles a ss b) : a ≤ b := by
  induction ss generalizing a with
  | nil => exact le_of_eq h
  | cons s ss ih => exact h.1 ▸ h.2.1.le.trans (ih h.2.2)

theorem STiles.lt {a b : K} {ss : List (Slice K)} (h : STiles a ss b) (hne : ss ≠ []) : a < b := by
  cases ss with
  | nil => exact absurd rfl hne
  | cons s ss => exact h.1 ▸ lt_of_lt_of_le h.2.1 h.2.2.le

theorem STiles.append {a b : K} {s1 s2 : List (Slice K)} :
    STiles a (s1 ++ s2) b ↔ ∃ m, STiles a s1 m ∧ STiles m s2 b := by
  induction s1 generalizing a with
  | nil => simp [STiles]
  | cons s ss ih =>
    simp only [List.cons_append, STiles, ih]
    constructor
    · rintro ⟨h1, h2, m, h3, h4⟩; exact ⟨m, ⟨h1, h2, h3⟩, h4⟩
    · rintro ⟨m, ⟨h1, h2, h3⟩, h4⟩; exact ⟨h1, h2, m, h3, h4⟩

theorem STiles.mem_bounds {a b : K} {ss : List (Slice K)} (h : STiles a ss b) {s : Slice K} (hs : s ∈ ss) :
    a ≤ s.lb ∧ s.lb < s.ub ∧ s.ub ≤ b := by
  induction ss generalizing a with
  | nil => simp at hs
  | cons s' ss ih =>
    rw [List.mem_cons] at hs
    rcases hs with rfl | hs
    · exact ⟨h.1.ge, h.2.1, h.2.2.le⟩
    · have := ih h.2.2 hs
      exact ⟨h.1 ▸ (h.2.1.le.trans this.1), this.2⟩

theorem timeToIndex_append_lt {a m t : K} {s1 s2 : List (Slice K)} (h1 : STiles a s1 m)
    (hne : s1 ≠ []) (ht : t < m) : timeToIndex t (s1 ++ s2) = timeToIndex t s1 := by
  induction s1 generalizing a with
  | nil => exact absurd rfl hne
  | cons s ss ih =>
    cases ss with
    | nil =>
      have hm : s.ub = m := h1.2.2
      cases s2 with
      | nil => rfl
      | cons s' s2 => simp only [List.cons_append, List.nil_append, timeToIndex]; rw [if_pos (hm ▸ ht)]
    | cons s' ss =>
      simp only [List.cons_append, timeToIndex]
      have := ih h1.2.2 (by simp)
      rw [List.cons_append] at this
      rw [this]

theorem timeToIndex_append_ge {a m t : K} {s1 s2 : List (Slice K)} (h1 : STiles a s1 m)
    (hne : s2 ≠ []) (ht : m ≤ t) : timeToIndex t (s1 ++ s2) = timeToIndex t s2 + s1.length := by
  induction s1 generalizing a with
  | nil => simp
  | cons s ss ih =>
    have hs : s.ub ≤ t := h1.2.2.le.trans ht
    have hne' : ss ++ s2 ≠ [] := by simp [hne]
    obtain ⟨s', r, e⟩ := List.exists_cons_of_ne_nil hne'
    have := ih h1.2.2
    simp only [List.cons_append, List.length_cons]
    rw [e] at this ⊢
    simp only [timeToIndex]
    rw [if_neg (not_lt.mpr hs), this]
    omega

theorem timeToIndex_end {a b : K} {ss : List (Slice K)} (h : STiles a ss b) :
    timeToIndex b ss = ss.length - 1 := by
  induction ss generalizing a with
  | nil => rfl
  | cons s ss ih =>
    cases ss with
    | nil => rfl
    | cons s' ss =>
      simp only [timeToIndex]
      rw [if_neg (not_lt.mpr h.2.2.le), ih h.2.2]
      simp

theorem seek_head_eq_index (t : K) (ss : List (Slice K)) : (seek t ss).head? = ss[timeToIndex t ss]? := by
  induction ss with
  | nil => rfl
  | cons s ss ih =>
    cases ss with
    | nil => rfl
    | cons s' ss =>
      simp only [seek, timeToIndex]
      split_ifs
      · rfl
      · rw [ih]; rfl

namespace TTree

/-- the tree `t` stands for the slices `ss` (indices from `k0`), whatever its caches -/
def Repr (k0 : Nat) : TTree K → List (Slice K) → Prop
  | leaf k a b _, ss => k = k0 ∧ ∃ s, ss = [s] ∧ s.lb = a ∧ s.ub = b
  | node a b n _ l r, ss => ∃ s1 s2, ss = s1 ++ s2 ∧ s1 ≠ [] ∧ s2 ≠ [] ∧ Repr k0 l s1 ∧ Repr (k0 + s1.length) r s2 ∧
      n = ss.length ∧ s1.length = (n + 1) / 2 ∧ a = min l.lb r.lb ∧ b = max l.ub r.ub

theorem build_repr (k0 : Nat) (ss : List (Slice K)) (h : ss ≠ []) : (build k0 ss h).Repr k0 ss := by
  fun_induction build k0 ss h with
  | case1 k0 ss h hn =>
    refine ⟨rfl, ss.head h, ?_, rfl, rfl⟩
    obtain ⟨s, r, e⟩ := List.exists_cons_of_ne_nil h
    subst e
    simp only [List.length_cons] at hn
    have : r = [] := List.length_eq_zero_iff.mp (by omega)
    subst this; rfl
  | case2 k0 ss h hn m l r ih1 ih2 =>
    have hlen : (ss.take m).length = m := by
      rw [List.length_take]; simp only [m]; omega
    refine ⟨ss.take m, ss.drop m, (List.take_append_drop m ss).symm, ?_, ?_, ih1, ?_, rfl, ?_, rfl, rfl⟩
    · intro h'; rw [h'] at hlen; simp only [List.length_nil, m] at hlen; omega
    · intro h'
      have := congrArg List.length h'
      simp only [List.length_drop, List.length_nil, m] at this; omega
    · rw [hlen]; exact ih2
    · rw [hlen]

theorem Repr.nb_eq {k0 : Nat} {t : TTree K} {ss : List (Slice K)} (h : t.Repr k0 ss) : t.nb = ss.length := by
  cases t with
  | leaf k a b c => obtain ⟨_, s, rfl, _⟩ := h; rfl
  | node a b n c l r => obtain ⟨s1, s2, _, _, _, _, _, hn, _⟩ := h; exact hn

theorem Repr.dom {k0 : Nat} {t : TTree K} {ss : List (Slice K)} {a b : K} (h : t.Repr k0 ss) (ht : STiles a ss b) :
    t.lb = a ∧ t.ub = b := by
  induction t generalizing k0 ss a b with
  | leaf k x y c =>
    obtain ⟨_, s, rfl, h1, h2⟩ := h
    obtain ⟨e1, _, e2⟩ := ht
    exact ⟨by simp [lb, ← h1, e1], by simp only [ub, ← h2]; exact e2⟩
  | node x y n c l r ih1 ih2 =>
    obtain ⟨s1, s2, rfl, n1, n2, r1, r2, _, _, hx, hy⟩ := h
    obtain ⟨m, t1, t2⟩ := STiles.append.mp ht
    have d1 := ih1 r1 t1
    have d2 := ih2 r2 t2
    refine ⟨?_, ?_⟩
    · simp only [lb]; rw [hx, d1.1, d2.1]; exact min_eq_left t1.le
    · simp only [ub]; rw [hy, d1.2, d2.2]; exact max_eq_right t2.le

theorem Repr.ne {k0 : Nat} {t : TTree K} {ss : List (Slice K)} (h : t.Repr k0 ss) : ss ≠ [] := by
  cases t with
  | leaf k a b c => obtain ⟨_, s, rfl, _⟩ := h; simp
  | node a b n c l r => obtain ⟨s1, s2, rfl, h1, _⟩ := h; simp [h1]

theorem timeToIndex_eq {k0 : Nat} {tr : TTree K} {ss : List (Slice K)} {a b t : K} (h : tr.Repr k0 ss)
    (ht : STiles a ss b) (_h1 : a ≤ t) (_h2 : t ≤ b) : tr.timeToIndex t = Codac.timeToIndex t ss := by
  induction tr generalizing k0 ss a b with
  | leaf k x y c =>
    obtain ⟨_, s, rfl, _, _⟩ := h
    simp [timeToIndex, Codac.timeToIndex]
  | node x y n c l r ih1 ih2 =>
    have hdom := h.dom ht
    obtain ⟨s1, s2, rfl, n1, n2, r1, r2, hn, _, _, _⟩ := h
    obtain ⟨m, t1, t2⟩ := STiles.append.mp ht
    have d1 := r1.dom t1
    simp only [timeToIndex]
    have hy : y = b := hdom.2
    split_ifs with e1 e2
    · rw [e1, hy, timeToIndex_end ht, hn]
    · rw [d1.2] at e2
      rw [timeToIndex_append_lt t1 n1 e2]
      exact ih1 r1 t1 _h1 e2.le
    · rw [d1.2, not_lt] at e2
      rw [timeToIndex_append_ge t1 n2 e2, r1.nb_eq]
      rw [ih2 r2 t2 e2 _h2]

theorem sliceIdx_eq {k0 : Nat} {tr : TTree K} {ss : List (Slice K)} (h : tr.Repr k0 ss) {i : Nat} (hi : i < ss.length) :
    tr.sliceIdx i = k0 + i := by
  induction tr generalizing k0 ss i with
  | leaf k x y c =>
    obtain ⟨rfl, s, rfl, _, _⟩ := h
    simp only [List.length_singleton] at hi
    simp only [sliceIdx]; omega
  | node x y n c l r ih1 ih2 =>
    obtain ⟨s1, s2, rfl, n1, n2, r1, r2, hn, h1, _, _⟩ := h
    simp only [sliceIdx]
    rw [List.length_append] at hi
    split_ifs with e
    · exact ih1 r1 (by omega)
    · rw [ih2 r2 (by omega)]; omega

theorem sliceAtTime_eq {k0 : Nat} {tr : TTree K} {ss : List (Slice K)} {a b t : K} (h : tr.Repr k0 ss)
    (ht : STiles a ss b) (h1 : a ≤ t) (h2 : t ≤ b) : tr.sliceAtTime t = k0 + Codac.timeToIndex t ss := by
  induction tr generalizing k0 ss a b with
  | leaf k x y c =>
    obtain ⟨rfl, s, rfl, _, _⟩ := h
    simp [sliceAtTime, Codac.timeToIndex]
  | node x y n c l r ih1 ih2 =>
    obtain ⟨s1, s2, rfl, n1, n2, r1, r2, hn, _, _, _⟩ := h
    obtain ⟨m, t1, t2⟩ := STiles.append.mp ht
    have d1 := r1.dom t1
    simp only [sliceAtTime]
    split_ifs with e2
    · rw [d1.2] at e2
      rw [timeToIndex_append_lt t1 n1 e2]
      exact ih1 r1 t1 h1 e2.le
    · rw [d1.2, not_lt] at e2
      rw [timeToIndex_append_ge t1 n2 e2, ih2 r2 t2 e2 h2]
      omega

/-! ### values -/

/-- union of the envelopes of the slices of the tree, given the current envelopes -/
def hullOf (cd : Nat → Itv K) : TTree K → Itv K
  | leaf k _ _ _ => cd k
  | node _ _ _ _ l r => hullOf cd l ⊔ hullOf cd r

/-- the cache invariant: an unflagged node holds the union of the current envelopes, and the ancestors of a flagged node
are flagged -/
def Fresh (cd : Nat → Itv K) : TTree K → Prop
  | leaf k _ _ c => c.vneed = false → c.cod = cd k
  | node a b n c l r => (c.vneed = false → c.cod = hullOf cd (node a b n c l r) ∧ l.cache.vneed = false ∧ r.cache.vneed = false) ∧
      Fresh cd l ∧ Fresh cd r

/-- same tree up to the caches -/
def SameShape : TTree K → TTree K → Prop
  | leaf k a b _, leaf k' a' b' _ => k = k' ∧ a = a' ∧ b = b'
  | node a b n _ l r, node a' b' n' _ l' r' => a = a' ∧ b = b' ∧ n = n' ∧ SameShape l l' ∧ SameShape r r'
  | _, _ => False

theorem SameShape.refl (t : TTree K) : SameShape t t := by
  induction t with
  | leaf => exact ⟨rfl, rfl, rfl⟩
  | node _ _ _ _ _ _ ih1 ih2 => exact ⟨rfl, rfl, rfl, ih1, ih2⟩

theorem SameShape.trans {t u v : TTree K} (h : SameShape t u) (h' : SameShape u v) : SameShape t v := by
  induction t generalizing u v with
  | leaf k a b c =>
    cases u with
    | leaf => cases v with
      | leaf => obtain ⟨rfl, rfl, rfl⟩ := h; obtain ⟨rfl, rfl, rfl⟩ := h'; exact ⟨rfl, rfl, rfl⟩
      | node => exact h'.elim
    | node => exact h.elim
  | node a b n c l r ih1 ih2 =>
    cases u with
    | leaf => exact h.elim
    | node => cases v with
      | leaf => exact h'.elim
      | node =>
        obtain ⟨rfl, rfl, rfl, h1, h2⟩ := h
        obtain ⟨rfl, rfl, rfl, h1', h2'⟩ := h'
        exact ⟨rfl, rfl, rfl, ih1 h1 h1', ih2 h2 h2'⟩

theorem SameShape.lb_ub {t u : TTree K} (h : SameShape t u) : t.lb = u.lb ∧ t.ub = u.ub ∧ t.nb = u.nb := by
  cases t <;> cases u <;> simp_all [SameShape, lb, ub, nb]

theorem SameShape.repr {t u : TTree K} (h : SameShape t u) {k0 : Nat} {ss : List (Slice K)} (hr : t.Repr k0 ss) :
    u.Repr k0 ss := by
  induction t generalizing u k0 ss with
  | leaf k a b c =>
    cases u with
    | leaf => obtain ⟨rfl, rfl, rfl⟩ := h; exact hr
    | node => exact h.elim
  | node a b n c l r ih1 ih2 =>
    cases u with
    | leaf => exact h.elim
    | node =>
      obtain ⟨rfl, rfl, rfl, h1, h2⟩ := h
      obtain ⟨s1, s2, e, n1, n2, r1, r2, hn, hl, hx, hy⟩ := hr
      exact ⟨s1, s2, e, n1, n2, ih1 h1 r1, ih2 h2 r2, hn, hl, by rw [hx, h1.lb_ub.1, h2.lb_ub.1],
        by rw [hy, h1.lb_ub.2.1, h2.lb_ub.2.1]⟩

theorem SameShape.hullOf {t u : TTree K} (h : SameShape t u) (cd : Nat → Itv K) : t.hullOf cd = u.hullOf cd := by
  induction t generalizing u with
  | leaf k a b c =>
    cases u with
    | leaf => obtain ⟨rfl, rfl, rfl⟩ := h; rfl
    | node => exact h.elim
  | node a b n c l r ih1 ih2 =>
    cases u with
    | leaf => exact h.elim
    | node =>
      obtain ⟨rfl, rfl, rfl, h1, h2⟩ := h
      simp only [TTree.hullOf, ih1 h1, ih2 h2]

/-- `update_values` makes the tree up to date -/
theorem updateValues_spec {sl : Nat → Slice K} {cd : Nat → Itv K} (hcd : ∀ k, (sl k).cod = cd k) {t : TTree K}
    (h : t.Fresh cd) :
    (updateValues sl t).Fresh cd ∧ (updateValues sl t).cache.vneed = false ∧
      (updateValues sl t).cache.cod = t.hullOf cd ∧ SameShape t (updateValues sl t) := by
  induction t with
  | leaf k a b c =>
    simp only [updateValues]
    split_ifs with hv
    · exact ⟨fun _ => hcd k, rfl, hcd k, rfl, rfl, rfl⟩
    · have hv' : c.vneed = false := by simpa using hv
      exact ⟨h, hv', h hv', rfl, rfl, rfl⟩
  | node a b n c l r ih1 ih2 =>
    obtain ⟨h0, h1, h2⟩ := h
    simp only [updateValues]
    split_ifs with hv
    · obtain ⟨f1, v1, c1, s1⟩ := ih1 h1
      obtain ⟨f2, v2, c2, s2⟩ := ih2 h2
      refine ⟨⟨fun _ => ⟨?_, v1, v2⟩, f1, f2⟩, rfl, ?_, rfl, rfl, rfl, s1, s2⟩
      · simp only [hullOf, c1, c2, s1.hullOf cd, s2.hullOf cd]
      · change (updateValues sl l).cache.cod ⊔ (updateValues sl r).cache.cod = hullOf cd l ⊔ hullOf cd r
        rw [c1, c2]
    · have hv' : c.vneed = false := by simpa using hv
      exact ⟨⟨h0, h1, h2⟩, hv', (h0 hv').1, SameShape.refl _⟩

/-- a notification keeps the invariant when only the envelope of the notifying slice has changed -/
theorem reqValues_spec {cd cd' : Nat → Itv K} {k : Nat} (hcd : ∀ i, i ≠ k → cd' i = cd i) {t : TTree K}
    (h : t.Fresh cd) :
    (reqValues k t).1.Fresh cd' ∧ SameShape t (reqValues k t).1 ∧
      ((reqValues k t).1.cache.vneed = false → t.cache.vneed = false ∧ (reqValues k t).2 = false ∧
        t.hullOf cd' = t.hullOf cd) ∧
      ((reqValues k t).2 = false → (reqValues k t).1.cache.vneed = t.cache.vneed) := by
  induction t with
  | leaf k' a b c =>
    simp only [reqValues]
    split_ifs with hk hv
    · refine ⟨?_, ⟨rfl, rfl, rfl⟩, ?_, ?_⟩ <;> simp_all [Fresh, cache]
    · refine ⟨?_, ⟨rfl, rfl, rfl⟩, ?_, ?_⟩ <;> simp_all [Fresh, cache]
    · have hk' : k' ≠ k := fun e => hk e.symm
      refine ⟨?_, ⟨rfl, rfl, rfl⟩, ?_, ?_⟩
      · intro hv; rw [hcd k' hk']; exact h hv
      · intro hv; exact ⟨hv, rfl, hcd k' hk'⟩
      · intro _; rfl
  | node a b n c l r ih1 ih2 =>
    obtain ⟨h0, h1, h2⟩ := h
    obtain ⟨f1, s1, u1, w1⟩ := ih1 h1
    obtain ⟨f2, s2, u2, w2⟩ := ih2 h2
    simp only [reqValues]
    split_ifs with hc
    · refine ⟨⟨by simp, f1, f2⟩, ⟨rfl, rfl, rfl, s1, s2⟩, ?_, ?_⟩ <;> simp [cache]
    · have key : c.vneed = false → (reqValues k l).1.cache.vneed = false ∧ (reqValues k r).1.cache.vneed = false ∧
          (hullOf cd' l = hullOf cd l ∧ hullOf cd' r = hullOf cd r) := by
        intro hv
        rw [hv] at hc
        simp only [Bool.not_false, Bool.and_true, Bool.or_eq_true, not_or, Bool.not_eq_true] at hc
        have e1 : (reqValues k l).1.cache.vneed = false := by rw [w1 hc.1]; exact (h0 hv).2.1
        have e2 : (reqValues k r).1.cache.vneed = false := by rw [w2 hc.2]; exact (h0 hv).2.2
        exact ⟨e1, e2, (u1 e1).2.2, (u2 e2).2.2⟩
      refine ⟨⟨fun hv => ⟨?_, (key hv).1, (key hv).2.1⟩, f1, f2⟩, ⟨rfl, rfl, rfl, s1, s2⟩, ?_, fun _ => rfl⟩
      · simp only [hullOf]
        rw [← s1.hullOf, ← s2.hullOf, (key hv).2.2.1, (key hv).2.2.2]
        exact (h0 hv).1
      · intro hv
        refine ⟨hv, rfl, ?_⟩
        simp only [hullOf]
        rw [(key hv).2.2.1, (key hv).2.2.2]

theorem build_fresh (cd : Nat → Itv K) (k0 : Nat) (ss : List (Slice K)) (h : ss ≠ []) : (build k0 ss h).Fresh cd := by
  fun_induction build k0 ss h with
  | case1 k0 ss h hn => intro hv; simp [initCache] at hv
  | case2 k0 ss h hn m l r ih1 ih2 => exact ⟨fun hv => by simp [initCache] at hv, ih1, ih2⟩

/-! ### evaluation -/

/-- union of the envelopes of the slices of a list which meet the interior of `[a,b]` -/
def hullIn (a b : K) (ss : List (Slice K)) : Itv K :=
  (ss.filter fun s => decide (s.lb < b ∧ a < s.ub)).foldr (fun s acc => s.cod ⊔ acc) ⊥

theorem hullIn_append (a b : K) (s1 s2 : List (Slice K)) : hullIn a b (s1 ++ s2) = hullIn a b s1 ⊔ hullIn a b s2 := by
  induction s1 with
  | nil => simp [hullIn]
  | cons s ss ih =>
    unfold hullIn at ih ⊢
    rw [List.cons_append, List.filter_cons, List.filter_cons]
    split_ifs
    · rw [List.foldr_cons, List.foldr_cons, ih, sup_assoc]
    · exact ih

theorem hullIn_le_iff {a b : K} {ss : List (Slice K)} {X : Itv K} :
    hullIn a b ss ≤ X ↔ ∀ s ∈ ss, s.lb < b → a < s.ub → s.cod ≤ X := by
  induction ss with
  | nil => simp [hullIn]
  | cons s ss ih =>
    unfold hullIn at ih ⊢
    rw [List.filter_cons]
    split_ifs with hc
    · rw [List.foldr_cons, sup_le_iff, ih]
      simp only [decide_eq_true_eq] at hc
      simp only [List.mem_cons, forall_eq_or_imp]
      exact ⟨fun h => ⟨fun _ _ => h.1, h.2⟩, fun h => ⟨h.1 hc.1 hc.2, h.2⟩⟩
    · simp only [decide_eq_true_eq, not_and] at hc
      rw [ih]
      simp only [List.mem_cons, forall_eq_or_imp]
      exact ⟨fun h => ⟨fun h1 h2 => absurd h2 (hc h1), h⟩, fun h => h.2⟩

theorem hullIn_congr {a b a' b' : K} {ss : List (Slice K)}
    (h : ∀ s ∈ ss, (s.lb < b ∧ a < s.ub) ↔ (s.lb < b' ∧ a' < s.ub)) : hullIn a b ss = hullIn a' b' ss := by
  unfold hullIn
  congr 1
  apply List.filter_congr
  intro s hs
  simp only [decide_eq_decide]
  exact h s hs

/-- the values of the nodes in a tree up to date -/
theorem hullOf_eq {cd : Nat → Itv K} {k0 : Nat} {t : TTree K} {ss : List (Slice K)} {a b : K} (h : t.Repr k0 ss)
    (ht : STiles a ss b) (hcd : ∀ i s, ss[i]? = some s → cd (k0 + i) = s.cod) : t.hullOf cd = hullIn a b ss := by
  induction t generalizing k0 ss a b with
  | leaf k x y c =>
    obtain ⟨rfl, s, rfl, _, _⟩ := h
    obtain ⟨e1, e2, e3⟩ := ht
    have e3 : s.ub = b := e3
    have := hcd 0 s rfl
    simp only [hullOf]
    have hb : s.lb < b := e3 ▸ e2
    have ha : a < s.ub := e1 ▸ e2
    rw [Nat.add_zero] at this
    simp [hullIn, hb, ha, this]
  | node x y n c l r ih1 ih2 =>
    obtain ⟨s1, s2, rfl, n1, n2, r1, r2, hn, hl, _, _⟩ := h
    obtain ⟨m, t1, t2⟩ := STiles.append.mp ht
    simp only [hullOf]
    rw [hullIn_append, ih1 r1 t1 ?_, ih2 r2 t2 ?_]
    · congr 1
      · apply hullIn_congr
        intro s hs
        have := t1.mem_bounds hs
        exact ⟨fun h => ⟨lt_of_lt_of_le this.2.1 (this.2.2.trans t2.le), h.2⟩, fun h => ⟨lt_of_lt_of_le this.2.1 this.2.2, h.2⟩⟩
      · apply hullIn_congr
        intro s hs
        have := t2.mem_bounds hs
        exact ⟨fun h => ⟨h.1, lt_of_le_of_lt (t1.le.trans this.1) this.2.1⟩, fun h => ⟨h.1, lt_of_le_of_lt this.1 this.2.1⟩⟩
    · intro i s hi
      have := hcd (s1.length + i) s (by rw [List.getElem?_append_right (by omega)]; simpa using hi)
      rw [← this]; congr 1; omega
    · intro i s hi
      have hlt : i < s1.length := by
        by_contra hc
        rw [List.getElem?_eq_none (by omega)] at hi
        exact absurd hi (by simp)
      exact hcd i s (by rw [List.getElem?_append_left hlt]; exact hi)

/-- relation between the current tree and the tree after `root()->update_values()`, node by node -/
def Upd (cd : Nat → Itv K) (n n' : TTree K) : Prop :=
  SameShape n n' ∧ n.Fresh cd ∧ (n.cache.vneed = true → n'.Fresh cd ∧ n'.cache.vneed = false)

theorem Upd.cod {cd : Nat → Itv K} {n n' : TTree K} (h : Upd cd n n') : (codomainOf n n').1 = n.hullOf cd := by
  have key : ∀ t : TTree K, t.Fresh cd → t.cache.vneed = false → t.cache.cod = t.hullOf cd := by
    intro t ht hv
    cases t with
    | leaf k a b c => exact ht hv
    | node a b n c l r => exact (ht.1 hv).1
  unfold codomainOf
  obtain ⟨h1, h2, h3⟩ := h
  split_ifs with hv
  · rw [h1.hullOf]
    exact key n' (h3 hv).1 (h3 hv).2
  · exact key n h2 (by simpa using hv)

theorem updateValues_upd {sl : Nat → Slice K} {cd : Nat → Itv K} (hcd : ∀ k, (sl k).cod = cd k) {t : TTree K}
    (h : t.Fresh cd) : Upd cd t (updateValues sl t) := by
  obtain ⟨h1, h2, _, h3⟩ := updateValues_spec hcd h
  exact ⟨h3, h, fun _ => ⟨h1, h2⟩⟩

theorem Upd.children {cd : Nat → Itv K} {x y x' y' : K} {n n' : Nat} {c c' : Cache K} {l r l' r' : TTree K}
    (h : Upd cd (node x y n c l r) (node x' y' n' c' l' r')) : Upd cd l l' ∧ Upd cd r r' := by
  obtain ⟨⟨_, _, _, s1, s2⟩, ⟨h0, h1, h2⟩, h3⟩ := h
  by_cases hv : c.vneed = true
  · obtain ⟨⟨g0, g1, g2⟩, hv'⟩ := h3 hv
    have := (g0 hv').2
    exact ⟨⟨s1, h1, fun _ => ⟨g1, this.1⟩⟩, ⟨s2, h2, fun _ => ⟨g2, this.2⟩⟩⟩
  · have hv' : c.vneed = false := by simpa using hv
    have := (h0 hv').2
    exact ⟨⟨s1, h1, fun e => absurd e (by simp [this.1])⟩, ⟨s2, h2, fun e => absurd e (by simp [this.2])⟩⟩

theorem evalItv_eq {ev : K → Itv K} {cd : Nat → Itv K} {k0 : Nat} {t t' : TTree K} {ss : List (Slice K)} {x y a b : K}
    (h : t.Repr k0 ss) (ht : STiles x ss y) (hcd : ∀ i s, ss[i]? = some s → cd (k0 + i) = s.cod) (hu : Upd cd t t')
    (hab : a < b) (h1 : x ≤ a) (h2 : b ≤ y) : (evalItv ev a b t t').1 = hullIn a b ss := by
  induction t generalizing k0 ss x y a b t' with
  | leaf k u v c =>
    have hd := h.dom ht
    have hu1 : u = x := hd.1
    have hv1 : v = y := hd.2
    simp only [evalItv]
    rw [if_neg (by rw [hu1, hv1]; push Not; exact ⟨h1, h2⟩), if_neg hab.ne, hu.cod, hullOf_eq h ht hcd]
    apply hullIn_congr
    intro s hs
    obtain ⟨_, s', rfl, _, _⟩ := h
    rw [List.mem_singleton] at hs; subst hs
    obtain ⟨e1, e2, e3⟩ := ht
    have e3 : s.ub = y := e3
    rw [e3, e1]
    exact ⟨fun _ => ⟨lt_of_le_of_lt h1 hab, lt_of_lt_of_le hab h2⟩, fun _ => ⟨e1 ▸ e3 ▸ e2, e1 ▸ e3 ▸ e2⟩⟩
  | node u v n c l r ih1 ih2 =>
    have hd := h.dom ht
    have hu1 : u = x := hd.1
    have hv1 : v = y := hd.2
    have hr := h
    obtain ⟨s1, s2, rfl, n1, n2, r1, r2, hn, hl, _, _⟩ := h
    obtain ⟨m, t1, t2⟩ := STiles.append.mp ht
    have hcd1 : ∀ i s, s1[i]? = some s → cd (k0 + i) = s.cod := by
      intro i s hi
      have hlt : i < s1.length := by
        by_contra hc
        rw [List.getElem?_eq_none (by omega)] at hi
        exact absurd hi (by simp)
      exact hcd i s (by rw [List.getElem?_append_left hlt]; exact hi)
    have hcd2 : ∀ i s, s2[i]? = some s → cd (k0 + s1.length + i) = s.cod := by
      intro i s hi
      have := hcd (s1.length + i) s (by rw [List.getElem?_append_right (by omega)]; simpa using hi)
      rw [← this]; congr 1; omega
    have d1 := r1.dom t1
    have d2 := r2.dom t2
    simp only [evalItv]
    rw [if_neg (by rw [hu1, hv1]; push Not; exact ⟨h1, h2⟩), if_neg hab.ne]
    by_cases hfull : a = u ∧ b = v
    · rw [if_pos hfull, hu.cod, hullOf_eq hr ht hcd, hfull.1, hfull.2, hu1, hv1]
    · rw [if_neg hfull]
      cases t' with
      | leaf => exact hu.1.elim
      | node u' v' n' c' l' r' =>
        obtain ⟨q1, q2⟩ := hu.children
        dsimp only
        rw [d1.2, d2.1]
        have left_eq : a < m → (evalItv ev a (min b m) l l').1 = hullIn a b s1 := by
          intro ham
          rw [ih1 r1 t1 hcd1 q1 (lt_min hab ham) h1 (min_le_right _ _)]
          apply hullIn_congr
          intro s hs
          have hb := t1.mem_bounds hs
          rw [lt_min_iff]
          exact ⟨fun h => ⟨h.1.1, h.2⟩, fun h => ⟨⟨h.1, lt_of_lt_of_le hb.2.1 hb.2.2⟩, h.2⟩⟩
        have right_eq : m < b → (evalItv ev (max a m) b r r').1 = hullIn a b s2 := by
          intro hmb
          rw [ih2 r2 t2 hcd2 q2 (max_lt hab hmb) (le_max_right _ _) h2]
          apply hullIn_congr
          intro s hs
          have hb := t2.mem_bounds hs
          rw [max_lt_iff]
          exact ⟨fun h => ⟨h.1, h.2.1⟩, fun h => ⟨h.1, h.2, lt_of_le_of_lt hb.1 hb.2.1⟩⟩
        have left_none : m ≤ a → hullIn a b s1 = ⊥ := by
          intro hma
          rw [← le_bot_iff, hullIn_le_iff]
          intro s hs _ h4
          exact absurd (lt_of_lt_of_le h4 (t1.mem_bounds hs).2.2) (not_lt.mpr hma)
        have right_none : b ≤ m → hullIn a b s2 = ⊥ := by
          intro hbm
          rw [← le_bot_iff, hullIn_le_iff]
          intro s hs h4 _
          exact absurd (lt_of_le_of_lt (t2.mem_bounds hs).1 h4) (not_lt.mpr hbm)
        rw [hullIn_append]
        by_cases ham : a < m
        · have hb1 : ¬ (min b m ≤ a) := not_le.mpr (lt_min hab ham)
          by_cases hmb : m < b
          · have ha2 : ¬ (b ≤ max a m) := not_le.mpr (max_lt hab hmb)
            rw [if_neg (fun h => hb1 h.1), if_neg (fun h => ha2 h.1)]
            dsimp only
            rw [left_eq ham, right_eq hmb]
          · have ha2 : b ≤ max a m := (not_lt.mp hmb).trans (le_max_right _ _)
            rw [if_neg (fun h => hb1 h.1), if_pos ⟨ha2, hb1⟩, left_eq ham, right_none (not_lt.mp hmb), sup_bot_eq]
        · have hma := not_lt.mp ham
          have hb1 : min b m ≤ a := (min_le_right _ _).trans hma
          have hmb : m < b := lt_of_le_of_lt hma hab
          rw [if_pos ⟨hb1, not_le.mpr (max_lt hab hmb)⟩, right_eq hmb, left_none hma, bot_sup_eq]

end TTree

/-- evaluation of the plain tube in the same terms -/
theorem Tube.evalItv_eq_hullIn {T : Tube K} (h : T.WF) {a b : K} (hab : a < b) (h1 : T.t0 ≤ a) (h2 : b ≤ T.tf) :
    T.evalItv (.icc a b) = TTree.hullIn a b T.slices := by
  apply le_antisymm
  · rw [evalItv_le_iff h hab h1 h2]
    exact TTree.hullIn_le_iff.mp le_rfl
  · rw [TTree.hullIn_le_iff]
    exact (evalItv_le_iff h hab h1 h2).mp le_rfl

theorem Tube.codomain_eq_hullIn {T : Tube K} (h : T.WF) : T.codomain = TTree.hullIn T.t0 T.tf T.slices := by
  have key : ∀ (ss : List (Slice K)) (acc X : Itv K), ss.foldl (fun acc s => acc ⊔ s.cod) acc ≤ X ↔ acc ≤ X ∧ ∀ s ∈ ss, s.cod ≤ X := by
    intro ss
    induction ss with
    | nil => simp
    | cons s ss ih =>
      intro acc X
      rw [List.foldl_cons, ih, sup_le_iff]
      simp only [List.mem_cons, forall_eq_or_imp, and_assoc]
  have hb : ∀ s ∈ T.slices, s.lb < T.tf ∧ T.t0 < s.ub := by
    intro s hs
    have := h.tiles.mem_bounds hs
    exact ⟨lt_of_lt_of_le this.2.1 this.2.2, lt_of_le_of_lt this.1 this.2.1⟩
  apply le_antisymm
  · rw [Tube.codomain, key]
    exact ⟨bot_le, fun s hs => TTree.hullIn_le_iff.mp le_rfl s hs (hb s hs).1 (hb s hs).2⟩
  · rw [TTree.hullIn_le_iff]
    exact fun s hs _ _ => ((key T.slices ⊥ _).mp le_rfl).2 s hs

end
end Codac
