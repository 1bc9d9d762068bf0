import Verif.Traj.Vector

/-! # Vectors of trajectories: proofs -/

set_option linter.unusedSectionVars false

namespace Codac.TVec

section Loops
variable {α β γ : Type*}

theorem allM_get {f : α → Option β} {l : List α} {r : List β} (h : allM f l = some r) :
    r.length = l.length ∧ ∀ (i : Nat) (a : α), l[i]? = some a → ∃ b, r[i]? = some b ∧ f a = some b := by
  induction l generalizing r with
  | nil => simp only [allM, Option.some.injEq] at h; subst h; simp
  | cons a l ih =>
    simp only [allM, Option.bind_eq_some_iff, Option.map_eq_some_iff] at h
    obtain ⟨b, hb, r', hr, rfl⟩ := h
    obtain ⟨h1, h2⟩ := ih hr
    refine ⟨by simp [h1], fun i c hc => ?_⟩
    cases i with
    | zero => simp only [List.getElem?_cons_zero, Option.some.injEq] at hc; subst hc; exact ⟨b, by simp, hb⟩
    | succ i => simpa using h2 i c (by simpa using hc)

theorem allM_total {f : α → Option β} {l : List α} (h : ∀ a ∈ l, ∃ b, f a = some b) : ∃ r, allM f l = some r := by
  induction l with
  | nil => exact ⟨[], rfl⟩
  | cons a l ih =>
    obtain ⟨b, hb⟩ := h a (by simp)
    obtain ⟨r, hr⟩ := ih fun c hc => h c (by simp [hc])
    exact ⟨b :: r, by simp [allM, hb, hr]⟩

theorem allM_of_get {f : α → Option β} {l : List α} {r : List β} (hl : r.length = l.length)
    (h : ∀ (i : Nat) (a : α), l[i]? = some a → ∃ b, r[i]? = some b ∧ f a = some b) : allM f l = some r := by
  obtain ⟨r', hr⟩ := allM_total (f := f) (l := l) fun a ha => by
    obtain ⟨i, hi⟩ := List.mem_iff_getElem?.mp ha
    obtain ⟨b, _, hb⟩ := h i a hi
    exact ⟨b, hb⟩
  obtain ⟨h1, h2⟩ := allM_get hr
  rw [hr]
  congr 1
  apply List.ext_getElem?
  intro i
  cases hi : l[i]? with
  | none =>
    rw [List.getElem?_eq_none_iff] at hi
    rw [List.getElem?_eq_none (by omega), List.getElem?_eq_none (by omega)]
  | some a =>
    obtain ⟨b, hb, hb'⟩ := h2 i a hi
    obtain ⟨c, hc, hc'⟩ := h i a hi
    rw [hb, hc, ← hb', hc']

theorem zipM_get {f : α → β → Option γ} {l : List α} {m : List β} {r : List γ} (h : zipM f l m = some r) :
    l.length = m.length ∧ r.length = l.length ∧
      ∀ (i : Nat) (a : α) (b : β), l[i]? = some a → m[i]? = some b → ∃ c, r[i]? = some c ∧ f a b = some c := by
  induction l generalizing m r with
  | nil =>
    cases m with
    | nil => simp only [zipM, Option.some.injEq] at h; subst h; simp
    | cons b m => simp [zipM] at h
  | cons a l ih =>
    cases m with
    | nil => simp [zipM] at h
    | cons b m =>
      simp only [zipM, Option.bind_eq_some_iff, Option.map_eq_some_iff] at h
      obtain ⟨c, hc, r', hr, rfl⟩ := h
      obtain ⟨h0, h1, h2⟩ := ih hr
      refine ⟨by simp [h0], by simp [h1], fun i u v hu hv => ?_⟩
      cases i with
      | zero =>
        simp only [List.getElem?_cons_zero, Option.some.injEq] at hu hv
        subst hu hv
        exact ⟨c, by simp, hc⟩
      | succ i => simpa using h2 i u v (by simpa using hu) (by simpa using hv)

theorem zipM_total {f : α → β → Option γ} {l : List α} {m : List β} (hl : l.length = m.length)
    (h : ∀ a ∈ l, ∀ b ∈ m, ∃ c, f a b = some c) : ∃ r, zipM f l m = some r := by
  induction l generalizing m with
  | nil =>
    cases m with
    | nil => exact ⟨[], rfl⟩
    | cons b m => simp at hl
  | cons a l ih =>
    cases m with
    | nil => simp at hl
    | cons b m =>
      obtain ⟨c, hc⟩ := h a (by simp) b (by simp)
      obtain ⟨r, hr⟩ := ih (m := m) (by simpa using hl) fun u hu v hv => h u (by simp [hu]) v (by simp [hv])
      exact ⟨c :: r, by simp [zipM, hc, hr]⟩

/-- an element of one of two lists of the same length has an element of the same index in the other -/
theorem get_of_length {l : List α} {m : List β} (h : m.length = l.length) {i : Nat} {a : α} (ha : l[i]? = some a) : ∃ b, m[i]? = some b := by
  have : i < l.length := (List.getElem?_eq_some_iff.mp ha).1
  exact ⟨m[i]'(by omega), List.getElem?_eq_getElem _⟩

/-! ### the operand is a component of the vector -/

theorem assignLoop_length {f : α → α → Option α} {y : Operand α} {n i : Nat} {l r : List α} (h : assignLoop f y n i l = some r) :
    r.length = l.length ∧ ∀ k < i, r[k]? = l[k]? := by
  induction n generalizing i l with
  | zero => simp only [assignLoop, Option.some.injEq] at h; subst h; exact ⟨rfl, fun _ _ => rfl⟩
  | succ n ih =>
    simp only [assignLoop, Option.bind_eq_some_iff] at h
    obtain ⟨a, _, b, _, c, _, h⟩ := h
    obtain ⟨h1, h2⟩ := ih h
    refine ⟨by rw [h1, List.length_set], fun k hk => ?_⟩
    rw [h2 k (by omega), List.getElem?_set_ne (by omega)]

/-- while the operand keeps the value `b`, each component is changed with `b` -/
theorem assignLoop_const {f : α → α → Option α} {y : Operand α} {b : α} {n i : Nat} {l r : List α} (h : assignLoop f y n i l = some r)
    (hy : y.read l = some b) (hj : ∀ j, y = .own j → j < i) :
    ∀ (k : Nat) (a : α), i ≤ k → k < i + n → l[k]? = some a → ∃ c, r[k]? = some c ∧ f a b = some c := by
  induction n generalizing i l with
  | zero => intro k a h1 h2; omega
  | succ n ih =>
    simp only [assignLoop, Option.bind_eq_some_iff] at h
    obtain ⟨a, ha, b', hb', c, hc, h⟩ := h
    rw [hy, Option.some.injEq] at hb'
    subst hb'
    have hy' : y.read (l.set i c) = some b := by
      cases y with
      | other y => exact hy
      | own j => simp only [Operand.read] at hy ⊢; rw [List.getElem?_set_ne (by have := hj j rfl; omega)]; exact hy
    intro k d h1 h2 hd
    rcases eq_or_lt_of_le h1 with rfl | h1
    · rw [hd, Option.some.injEq] at ha
      subst ha
      refine ⟨c, ?_, hc⟩
      rw [(assignLoop_length h).2 i (by omega), List.getElem?_set_self (List.getElem?_eq_some_iff.mp hd).1]
    · exact ih h hy' (fun j hj' => by have := hj j hj'; omega) k d (by omega) (by omega) (by rw [List.getElem?_set_ne (by omega)]; exact hd)

/-- a component `j` of the vector used as operand: the components up to `j` are changed with its first value `b`, the other ones with its new value `c` -/
theorem assignLoop_own {f : α → α → Option α} {j : Nat} {b c : α} {n i : Nat} {l r : List α} (h : assignLoop f (.own j) n i l = some r)
    (hb : l[j]? = some b) (hc : f b b = some c) (hij : i ≤ j) (hn : j < i + n) :
    ∀ (k : Nat) (a : α), i ≤ k → k < i + n → l[k]? = some a → ∃ d, r[k]? = some d ∧ f a (if k ≤ j then b else c) = some d := by
  induction n generalizing i l with
  | zero => intro k a h1 h2; omega
  | succ n ih =>
    simp only [assignLoop, Option.bind_eq_some_iff, Operand.read] at h
    obtain ⟨a, ha, b', hb', e, he, h⟩ := h
    rw [hb, Option.some.injEq] at hb'
    subst hb'
    intro k d h1 h2 hd
    rcases eq_or_lt_of_le h1 with rfl | h1
    · rw [hd, Option.some.injEq] at ha
      subst ha
      refine ⟨e, ?_, by rw [if_pos hij]; exact he⟩
      rw [(assignLoop_length h).2 i (by omega), List.getElem?_set_self (List.getElem?_eq_some_iff.mp hd).1]
    · have hd' : (l.set i e)[k]? = some d := by rw [List.getElem?_set_ne (by omega)]; exact hd
      rcases eq_or_lt_of_le hij with rfl | hij
      · rw [hb, Option.some.injEq] at ha
        subst ha
        rw [hc, Option.some.injEq] at he
        subst he
        rw [if_neg (by omega)]
        refine assignLoop_const (b := c) h ?_ (fun j' hj' => ?_) k d (by omega) (by omega) hd'
        · simp only [Operand.read]; exact List.getElem?_set_self (List.getElem?_eq_some_iff.mp hb).1
        · simp only [Operand.own.injEq] at hj'; omega
      · exact ih h (by rw [List.getElem?_set_ne (by omega)]; exact hb) (by omega) (by omega) k d (by omega) (by omega) hd'

theorem assignLoop_total {f : α → α → Option α} {y : α} {n i : Nat} {l : List α} (hn : i + n = l.length)
    (h : ∀ (k : Nat) (a : α), i ≤ k → l[k]? = some a → ∃ c, f a y = some c) : ∃ r, assignLoop f (.other y) n i l = some r := by
  induction n generalizing i l with
  | zero => exact ⟨l, rfl⟩
  | succ n ih =>
    have hi : i < l.length := by omega
    obtain ⟨c, hc⟩ := h i l[i] le_rfl (List.getElem?_eq_getElem hi)
    obtain ⟨r, hr⟩ := ih (i := i + 1) (l := l.set i c) (by rw [List.length_set]; omega) fun k a hk ha => by
      rw [List.getElem?_set_ne (by omega)] at ha
      exact h k a (by omega) ha
    exact ⟨r, by simp [assignLoop, Operand.read, List.getElem?_eq_getElem hi, hc, hr]⟩

end Loops

variable {K : Type*} [Field K] [LinearOrder K] [IsStrictOrderedRing K]

/-- the components are proper trajectories over the temporal domain `D` -/
def VecOk (D : Itv K) (x : List (Traj K)) : Prop := ∀ a ∈ x, TrajOk a ∧ a.dom = D

theorem eval_iff {x : List (Traj K)} {t : K} {u : List K} :
    eval x t = some u ↔ u.length = x.length ∧ ∀ (i : Nat) (a : Traj K), x[i]? = some a → ∃ v, u[i]? = some v ∧ a.evalAt t = some v := by
  constructor
  · intro h; exact allM_get h
  · rintro ⟨h1, h2⟩; exact allM_of_get h1 h2

theorem eval_some {D : Itv K} {x : List (Traj K)} (hx : VecOk D x) {t : K} (ht : t ∈ D) : ∃ u, eval x t = some u :=
  allM_total fun a ha => evalAt_some (hx a ha).1 (by rw [(hx a ha).2]; exact ht)

theorem mem_dom_of_eval {D : Itv K} {x : List (Traj K)} (hx : VecOk D x) (hne : x ≠ []) {t : K} {u : List K} (h : eval x t = some u) : t ∈ D := by
  obtain ⟨a, l, rfl⟩ := List.exists_cons_of_ne_nil hne
  obtain ⟨v, _, hv⟩ := (eval_iff.mp h).2 0 a (by simp)
  by_contra hc
  rw [evalAt_none (by rw [(hx a (by simp)).2]; exact hc)] at hv
  cases hv

/-! ### Linear combinations of functions given on the same instants -/

/-- the points of the function `g` at the instants `ts` -/
def ptsOf (g : K → K) (ts : List K) : List (K × K) := ts.map fun s => (s, g s)

theorem ptsOf_keys (g : K → K) (ts : List K) : (ptsOf g ts).map Prod.fst = ts := by
  unfold ptsOf; rw [List.map_map]; exact List.map_id _

theorem zipPts_ptsOf (f : K → K → K) (g h : K → K) (ts : List K) :
    Traj.zipPts f (ptsOf g ts) (ptsOf h ts) = some (ptsOf (fun s => f (g s) (h s)) ts) := by
  induction ts with
  | nil => rfl
  | cons t ts ih =>
    simp only [ptsOf, List.map_cons, Traj.zipPts] at ih ⊢
    rw [ih]; rfl

theorem sorted_ptsOf {ts : List K} (hs : ts.Pairwise (· < ·)) (g : K → K) : SortedPts (ptsOf g ts) := by
  rw [sortedPts_iff, ptsOf_keys]; exact hs

theorem ev_lin {ts : List K} (hs : ts.Pairwise (· < ·)) (c d : K) {g h : K → K} {t u v : K} (hu : ev t (ptsOf g ts) = some u) (hv : ev t (ptsOf h ts) = some v) :
    ev t (ptsOf (fun s => c * g s + d * h s) ts) = some (c * u + d * v) :=
  ev_zipPts c d (by rw [ptsOf_keys, ptsOf_keys]) (sorted_ptsOf hs g) (zipPts_ptsOf _ g h ts) t u v hu hv

theorem ev_dot {ts : List K} (hs : ts.Pairwise (· < ·)) {t w : K} {g0 : K → K} (hw : ev t (ptsOf g0 ts) = some w) (r : List K) :
    ∀ (gs : List (K → K)) (u : List K), r.length = gs.length → u.length = gs.length →
      (∀ (i : Nat) (g : K → K), gs[i]? = some g → ∃ v, u[i]? = some v ∧ ev t (ptsOf g ts) = some v) →
      ev t (ptsOf (fun s => dot r (gs.map fun g => g s)) ts) = some (dot r u) := by
  induction r with
  | nil =>
    intro gs u _ _ _
    have := ev_lin hs 0 0 hw hw
    simp only [zero_mul, add_zero] at this
    exact this
  | cons c r ih =>
    intro gs u h1 h2 h
    cases gs with
    | nil => simp at h1
    | cons g gs =>
      cases u with
      | nil => simp at h2
      | cons v u =>
        obtain ⟨v', hv', hv⟩ := h 0 g (by simp)
        simp only [List.getElem?_cons_zero, Option.some.injEq] at hv'
        subst hv'
        have := ev_lin hs c 1 hv (ih gs u (by simpa using h1) (by simpa using h2) fun i g' hg' => by simpa using h (i + 1) g' (by simpa using hg'))
        simp only [one_mul] at this
        exact this

/-- a trajectory is given by its values at any instants which contain its own -/
theorem ev_resample {x : Traj K} (hx : TrajOk x) {ts : List K} (hs : ts.Pairwise (· < ·)) (hd : ∀ t ∈ ts, t ∈ x.dom)
    (hk : ∀ p ∈ x.pts, p.1 ∈ ts) (t : K) : ev t (ptsOf (fun s => (x.evalAt s).getD 0) ts) = x.evalAt t := by
  obtain ⟨m, hm⟩ := sampleLoop_total hx ts x.pts hd
  obtain ⟨h1, h2, h3, h4⟩ := sampleLoop_spec hx (.refl hx.sorted) hm
  have hkeys : m.map Prod.fst = (ptsOf (fun s => (x.evalAt s).getD 0) ts).map Prod.fst := by
    refine sorted_keys_eq h1.sorted (sorted_ptsOf hs _) fun k => ?_
    rw [ptsOf_keys]
    constructor
    · intro hk'
      obtain ⟨p, hp, rfl⟩ := List.mem_map.mp hk'
      exact (h4 p hp).elim (hk p) id
    · intro hk'
      obtain ⟨p, hp, rfl⟩ := h3 k hk'
      exact List.mem_map_of_mem hp
  rw [ptsOf_keys] at hkeys
  have hval : ∀ p ∈ m, p = (p.1, (x.evalAt p.1).getD 0) := by
    intro p hp
    have : x.evalAt p.1 = some p.2 := by
      rw [evalAt_ev hx, ← h1.same]; exact (ev_iff h1.sorted).mpr (.inl hp)
    rw [this]; rfl
  have he : m = ptsOf (fun s => (x.evalAt s).getD 0) ts := by
    rw [← hkeys]
    unfold ptsOf
    rw [List.map_map]
    conv_lhs => rw [← List.map_id m]
    exact List.map_congr_left fun p hp => by simpa using hval p hp
  rw [← he, h1.same, evalAt_ev hx]

/-! ### Setting the values one instant after the other -/

theorem set_get {r : List (Traj K)} (hr : r ≠ []) {v : List K} (hv : v.length = r.length) (t : K) :
    ∃ r', set r v t = some r' ∧ r'.length = r.length ∧ ∀ (i : Nat) (a : Traj K), r[i]? = some a → r'[i]? = some (a.set (v.getD i 0) t) := by
  have hl : r.length ≠ 0 := by simpa using hr
  obtain ⟨r', h⟩ := zipM_total (f := fun (a : Traj K) w => some (a.set w t)) hv.symm fun a _ b _ => ⟨_, rfl⟩
  obtain ⟨_, h1, h2⟩ := zipM_get h
  refine ⟨r', by unfold set; simp only [if_neg hl]; exact h, h1, fun i a ha => ?_⟩
  obtain ⟨b, hb⟩ := get_of_length hv ha
  obtain ⟨c, hc, hc'⟩ := h2 i a b ha hb
  rw [hc, ← hc', List.getD_eq_getElem?_getD, hb]; rfl

theorem setAll_get {g : List K → Option (List K)} {x : List (Traj K)} {V : K → List K} : ∀ {ts : List K} {r : List (Traj K)}, r ≠ [] →
    (∀ t ∈ ts, ∃ u, eval x t = some u ∧ g u = some (V t) ∧ (V t).length = r.length) →
    ∃ r', setAll g x ts r = some r' ∧ r'.length = r.length ∧ ∀ (i : Nat) (a : Traj K), r[i]? = some a →
      r'[i]? = some ((ptsOf (fun t => (V t).getD i 0) ts).foldl (fun y p => y.set p.2 p.1) a) := by
  intro ts
  induction ts with
  | nil => intro r _ _; exact ⟨r, rfl, rfl, fun i a ha => by simpa [ptsOf] using ha⟩
  | cons t ts ih =>
    intro r hr h
    obtain ⟨u, hu, hg, hl⟩ := h t (by simp)
    obtain ⟨r1, h1, h2, h3⟩ := set_get hr hl t
    have hr1 : r1 ≠ [] := by intro hc; rw [hc] at h2; exact hr (List.length_eq_zero_iff.mp h2.symm)
    obtain ⟨r2, h4, h5, h6⟩ := ih hr1 fun s hs => by rw [h2]; exact h s (by simp [hs])
    refine ⟨r2, by simp [setAll, hu, hg, h1, h4], by rw [h5, h2], fun i a ha => ?_⟩
    rw [h6 i _ (h3 i a ha)]
    simp [ptsOf]

theorem foldl_set_empty {ts : List K} (hs : ts.Pairwise (· < ·)) (g : K → K) {D : Itv K} (hD : IsHull D ts) :
    TrajOk ((ptsOf g ts).foldl (fun y p => y.set p.2 p.1) Traj.empty) ∧ ((ptsOf g ts).foldl (fun y p => y.set p.2 p.1) Traj.empty).dom = D ∧
      ((ptsOf g ts).foldl (fun y p => y.set p.2 p.1) Traj.empty).pts = ptsOf g ts := by
  obtain ⟨h1, h2⟩ := foldl_set (ptsOf g ts) Traj.empty trajOk_empty (by simpa [Traj.empty] using sorted_ptsOf hs g)
  have h2' : ((ptsOf g ts).foldl (fun y p => y.set p.2 p.1) Traj.empty).pts = ptsOf g ts := by simpa [Traj.empty] using h2
  refine ⟨h1, ?_, h2'⟩
  have := h1.dom
  rw [h2', ptsOf_keys] at this
  exact this.unique hD

/-- the vector of a linear function of the values, set at instants which contain those of all the components, has the right values at all instants -/
theorem setAll_linear {D : Itv K} {x y : List (Traj K)} (hx : VecOk D x) (hne : x ≠ []) (hl : y.length = x.length)
    (hxy : ∀ (i : Nat) (a b : Traj K), x[i]? = some a → y[i]? = some b → ∀ t, b.evalAt t = a.evalAt t) {ts : List K} (hs : ts.Pairwise (· < ·)) (hD : IsHull D ts)
    (hk : ∀ a ∈ x, ∀ p ∈ a.pts, p.1 ∈ ts) {A : List (List K)} (hA : ∀ r ∈ A, r.length = x.length) (hA0 : A ≠ []) {g : List K → Option (List K)}
    (hg : ∀ u : List K, u.length = x.length → g u = some (A.map fun r => dot r u)) :
    ∃ r, setAll g y ts (ofSize A.length) = some r ∧ r.length = A.length ∧ VecOk D r ∧
      ∀ t u, eval x t = some u → eval r t = some (A.map fun r => dot r u) := by
  have heval : ∀ t u, eval y t = some u ↔ eval x t = some u := by
    intro t u
    rw [eval_iff, eval_iff, hl]
    refine and_congr_right fun hu => ⟨fun h i a ha => ?_, fun h i b hb => ?_⟩
    · obtain ⟨b, hb⟩ := get_of_length hl ha
      obtain ⟨v, h1, h2⟩ := h i b hb
      exact ⟨v, h1, by rw [← hxy i a b ha hb]; exact h2⟩
    · obtain ⟨a, ha⟩ := get_of_length hl.symm hb
      obtain ⟨v, h1, h2⟩ := h i a ha
      exact ⟨v, h1, by rw [hxy i a b ha hb]; exact h2⟩
  have hvals : ∀ t ∈ ts, eval x t = some (x.map fun a => (a.evalAt t).getD 0) := by
    intro t ht
    rw [eval_iff]
    refine ⟨by simp, fun i a ha => ?_⟩
    obtain ⟨v, hv⟩ := evalAt_some (hx a (List.mem_of_getElem? ha)).1 (t := t) (by rw [(hx a (List.mem_of_getElem? ha)).2]; exact hD.1 t ht)
    exact ⟨v, by rw [List.getElem?_map, ha, Option.map_some, hv]; rfl, hv⟩
  have h0 : (ofSize A.length : List (Traj K)) ≠ [] := by
    unfold ofSize; intro hc
    rw [List.replicate_eq_nil_iff, List.length_eq_zero_iff] at hc
    exact hA0 hc
  obtain ⟨r, h1, h2, h3⟩ := setAll_get (g := g) (x := y) (V := fun t => A.map fun r => dot r (x.map fun a => (a.evalAt t).getD 0)) (ts := ts) h0 fun t ht =>
    ⟨_, (heval t _).mpr (hvals t ht), hg _ (by simp), by simp [ofSize]⟩
  have h2' : r.length = A.length := by rw [h2]; simp [ofSize]
  -- the components of the result
  have hcomp : ∀ (i : Nat) (row : List K), A[i]? = some row → ∃ c, r[i]? = some c ∧ TrajOk c ∧ c.dom = D ∧
      c.pts = ptsOf (fun s => dot row ((x.map fun (a : Traj K) (s : K) => (a.evalAt s).getD 0).map fun g => g s)) ts := by
    intro i row hrow
    have hi : i < A.length := (List.getElem?_eq_some_iff.mp hrow).1
    have := h3 i Traj.empty (by unfold ofSize; rw [List.getElem?_replicate, if_pos hi])
    obtain ⟨k1, k2, k3⟩ := foldl_set_empty hs (fun t => (A.map fun r => dot r (x.map fun a => (a.evalAt t).getD 0)).getD i 0) hD
    refine ⟨_, this, k1, k2, ?_⟩
    rw [k3]
    unfold ptsOf
    refine List.map_congr_left fun s _ => ?_
    dsimp only
    rw [List.getD_eq_getElem?_getD, List.getElem?_map, hrow, List.map_map]
    rfl
  refine ⟨r, h1, h2', ?_, ?_⟩
  · intro c hc
    obtain ⟨i, hi⟩ := List.mem_iff_getElem?.mp hc
    obtain ⟨row, hrow⟩ := get_of_length h2'.symm hi
    obtain ⟨c', k1, k2, k3, _⟩ := hcomp i row hrow
    rw [hi, Option.some.injEq] at k1
    subst k1
    exact ⟨k2, k3⟩
  · intro t u hu
    rw [eval_iff]
    refine ⟨by rw [List.length_map, h2'], fun i c hc => ?_⟩
    obtain ⟨row, hrow⟩ := get_of_length h2'.symm hc
    obtain ⟨c', k1, k2, _, k4⟩ := hcomp i row hrow
    rw [hc, Option.some.injEq] at k1
    subst k1
    refine ⟨dot row u, by rw [List.getElem?_map, hrow]; rfl, ?_⟩
    rw [evalAt_ev k2, k4]
    have hres : ∀ a ∈ x, ∀ t, ev t (ptsOf (fun s => (a.evalAt s).getD 0) ts) = a.evalAt t := fun a ha t =>
      ev_resample (hx a ha).1 hs (fun s hs' => by rw [(hx a ha).2]; exact hD.1 s hs') (hk a ha) t
    obtain ⟨a0, l, hx0⟩ := List.exists_cons_of_ne_nil hne
    obtain ⟨w, _, hw⟩ := (eval_iff.mp hu).2 0 a0 (by rw [hx0]; rfl)
    refine ev_dot hs (w := w) (g0 := fun s => (a0.evalAt s).getD 0) (by rw [hres a0 (by rw [hx0]; simp)]; exact hw) row _ u
      (by rw [List.length_map]; exact hA row (List.mem_of_getElem? hrow)) (by rw [List.length_map]; exact (eval_iff.mp hu).1) ?_
    intro i g hg
    rw [List.getElem?_map, Option.map_eq_some_iff] at hg
    obtain ⟨a, ha, rfl⟩ := hg
    obtain ⟨v, hv1, hv2⟩ := (eval_iff.mp hu).2 i a ha
    exact ⟨v, hv1, by rw [hres a (List.mem_of_getElem? ha)]; exact hv2⟩

/-! ### Sampling the components alike -/

/-- `y` is `x` with more instants: same functions, same temporal domains -/
structure Grown (x y : List (Traj K)) : Prop where
  length : y.length = x.length
  comp : ∀ (i : Nat) (a b : Traj K), x[i]? = some a → y[i]? = some b →
    b.dom = a.dom ∧ (∀ t, b.evalAt t = a.evalAt t) ∧ ∀ k ∈ a.pts.map Prod.fst, k ∈ b.pts.map Prod.fst

theorem Grown.refl (x : List (Traj K)) : Grown x x :=
  ⟨rfl, fun i a b ha hb => by rw [ha, Option.some.injEq] at hb; subst hb; exact ⟨rfl, fun _ => rfl, fun _ h => h⟩⟩

theorem Grown.trans {x y z : List (Traj K)} (h : Grown x y) (h' : Grown y z) : Grown x z :=
  ⟨by rw [h'.length, h.length], fun i a c ha hc => by
    obtain ⟨b, hb⟩ := get_of_length h.length ha
    obtain ⟨h1, h2, h3⟩ := h.comp i a b ha hb
    obtain ⟨k1, k2, k3⟩ := h'.comp i b c hb hc
    exact ⟨by rw [k1, h1], fun t => by rw [k2, h2], fun k hk => k3 k (h3 k hk)⟩⟩

theorem sampleStep_ok {D : Itv K} {x : List (Traj K)} (hx : VecOk D x) {i j : Nat} (hi : i < x.length) (hj : j < x.length) :
    ∃ y, sampleStep x i j = some y ∧ VecOk D y ∧ Grown x y ∧
      ∀ a b : Traj K, x[j]? = some a → y[i]? = some b → ∀ k ∈ a.pts.map Prod.fst, k ∈ b.pts.map Prod.fst := by
  by_cases hij : i = j
  · subst hij
    refine ⟨x, by unfold sampleStep; rw [if_pos rfl], hx, .refl x, fun a b ha hb k hk => ?_⟩
    rw [ha, Option.some.injEq] at hb
    subst hb; exact hk
  · have ha : x[i]? = some x[i] := List.getElem?_eq_getElem hi
    have hb : x[j]? = some x[j] := List.getElem?_eq_getElem hj
    obtain ⟨oa, da⟩ := hx _ (List.mem_of_getElem? ha)
    obtain ⟨ob, db⟩ := hx _ (List.mem_of_getElem? hb)
    obtain ⟨c, h1, h2, h3, h4, h5⟩ := sampleLike_total oa ob (by rw [da, db])
    refine ⟨x.set i c, by unfold sampleStep; rw [if_neg hij, ha, hb]; simp [h1], fun d hd => ?_, ⟨List.length_set, fun k u v hu hv => ?_⟩, fun u v hu hv k hk => ?_⟩
    · rcases List.mem_or_eq_of_mem_set hd with hd | rfl
      · exact hx d hd
      · exact ⟨h2, by rw [h3, da]⟩
    · by_cases hki : i = k
      · subst hki
        rw [List.getElem?_set_self hi, Option.some.injEq] at hv
        rw [ha, Option.some.injEq] at hu
        subst hu hv
        exact ⟨h3, h4, fun k hk => (h5 k).mpr (.inl hk)⟩
      · rw [List.getElem?_set_ne hki, hu, Option.some.injEq] at hv
        subst hv
        exact ⟨rfl, fun _ => rfl, fun _ h => h⟩
    · rw [List.getElem?_set_self hi, Option.some.injEq] at hv
      rw [hb, Option.some.injEq] at hu
      subst hu hv
      exact (h5 k).mpr (.inr hk)

theorem sampleRow_ok {D : Itv K} {i : Nat} : ∀ (js : List Nat) {x : List (Traj K)}, VecOk D x → i < x.length → (∀ j ∈ js, j < x.length) →
    ∃ y, sampleRow i js x = some y ∧ VecOk D y ∧ Grown x y ∧
      ∀ j ∈ js, ∀ a b : Traj K, x[j]? = some a → y[i]? = some b → ∀ k ∈ a.pts.map Prod.fst, k ∈ b.pts.map Prod.fst := by
  intro js
  induction js with
  | nil => intro x hx _ _; exact ⟨x, rfl, hx, .refl x, by simp⟩
  | cons j js ih =>
    intro x hx hi hjs
    obtain ⟨y, h1, h2, h3, h4⟩ := sampleStep_ok hx hi (hjs j (by simp))
    obtain ⟨z, k1, k2, k3, k4⟩ := ih h2 (by rw [h3.length]; exact hi) fun j' hj' => by rw [h3.length]; exact hjs j' (by simp [hj'])
    refine ⟨z, by simp [sampleRow, h1, k1], k2, h3.trans k3, fun j' hj' a c ha hc k hk => ?_⟩
    rcases List.mem_cons.mp hj' with rfl | hj'
    · obtain ⟨b, hb⟩ := get_of_length k3.length.symm hc
      exact (k3.comp i b c hb hc).2.2 k (h4 a b ha hb k hk)
    · obtain ⟨b, hb⟩ := get_of_length h3.length ha
      exact k4 j' hj' b c hb hc k ((h3.comp j' a b ha hb).2.2 k hk)

theorem sampleRows_ok {D : Itv K} {n : Nat} : ∀ (is : List Nat) {x : List (Traj K)}, VecOk D x → n = x.length → (∀ i ∈ is, i < x.length) →
    ∃ y, sampleRows n is x = some y ∧ VecOk D y ∧ Grown x y ∧
      ∀ i ∈ is, ∀ (j : Nat) (a b : Traj K), x[j]? = some a → y[i]? = some b → ∀ k ∈ a.pts.map Prod.fst, k ∈ b.pts.map Prod.fst := by
  intro is
  induction is with
  | nil => intro x hx _ _; exact ⟨x, rfl, hx, .refl x, by simp⟩
  | cons i is ih =>
    intro x hx hn his
    obtain ⟨y, h1, h2, h3, h4⟩ := sampleRow_ok (List.range n) hx (his i (by simp)) fun j hj => by rw [← hn]; exact List.mem_range.mp hj
    obtain ⟨z, k1, k2, k3, k4⟩ := ih h2 (by rw [h3.length]; exact hn) fun j' hj' => by rw [h3.length]; exact his j' (by simp [hj'])
    refine ⟨z, by simp [sampleRows, h1, k1], k2, h3.trans k3, fun i' hi' j a c ha hc k hk => ?_⟩
    rcases List.mem_cons.mp hi' with rfl | hi'
    · obtain ⟨b, hb⟩ := get_of_length k3.length.symm hc
      exact (k3.comp i' b c hb hc).2.2 k (h4 j (List.mem_range.mpr (by rw [hn]; exact (List.getElem?_eq_some_iff.mp ha).1)) a b ha hb k hk)
    · obtain ⟨b, hb⟩ := get_of_length h3.length ha
      exact k4 i' hi' j b c hb hc k ((h3.comp j a b ha hb).2.2 k hk)

theorem matVec_eq {A : List (List K)} {n : Nat} (hA : ∀ r ∈ A, r.length = n) {u : List K} (hu : u.length = n) : matVec A u = some (A.map fun r => dot r u) := by
  unfold matVec
  rw [if_pos]
  rw [List.all_eq_true]
  intro r hr
  rw [decide_eq_true_iff, hA r hr, hu]

theorem matMul_ok {D : Itv K} {x : List (Traj K)} (hx : VecOk D x) (hne : x ≠ []) {A : List (List K)} (hA : ∀ r ∈ A, r.length = x.length) (hsq : A.length = x.length) :
    ∃ r, matMul A x = some r ∧ r.length = x.length ∧ VecOk D r ∧ ∀ t u, eval x t = some u → eval r t = some (A.map fun r => dot r u) := by
  obtain ⟨y, h1, h2, h3, h4⟩ := sampleRows_ok (n := x.length) (List.range x.length) hx rfl fun i hi => List.mem_range.mp hi
  have hpos : 0 < x.length := List.length_pos_of_ne_nil hne
  have hy : y ≠ [] := by intro hc; rw [hc] at h3; exact hne (List.length_eq_zero_iff.mp h3.length.symm)
  obtain ⟨b, l, rfl⟩ := List.exists_cons_of_ne_nil hy
  obtain ⟨ob, db⟩ := h2 b (by simp)
  have hA0 : A ≠ [] := by intro hc; rw [hc] at hsq; simp at hsq; omega
  obtain ⟨r, k1, k2, k3, k4⟩ := setAll_linear (g := matVec A) hx hne h3.length (fun i a b ha hb => (h3.comp i a b ha hb).2.1)
    (ts := b.pts.map Prod.fst) (sortedPts_iff.mp ob.sorted) (by rw [← db]; exact ob.dom)
    (fun a ha p hp => by
      obtain ⟨j, hj⟩ := List.mem_iff_getElem?.mp ha
      exact h4 0 (List.mem_range.mpr hpos) j a b hj (by simp) p.1 (List.mem_map_of_mem hp)) hA hA0 (fun u hu => matVec_eq hA hu)
  refine ⟨r, ?_, by rw [k2, hsq], k3, k4⟩
  unfold matMul
  rw [h1, Option.bind_some, ← hsq]
  exact k1

/-- the rows of the matrix of `u ↦ u × v` -/
def crossRows (d e f : K) : List (List K) := [[0, f, -e], [-f, 0, d], [e, -d, 0]]

theorem crossVec_eq {d e f : K} {u : List K} (hu : u.length = 3) : crossVec u [d, e, f] = some ((crossRows d e f).map fun r => dot r u) := by
  obtain ⟨a, b, c, rfl⟩ := List.length_eq_three.mp hu
  simp only [crossVec, crossRows, List.map_cons, List.map_nil, dot, Option.some.injEq, List.cons.injEq, and_true]
  refine ⟨by ring, by ring, by ring⟩

theorem cross_ok {D : Itv K} {a b c : Traj K} (hx : VecOk D [a, b, c]) (hkb : ∀ p ∈ b.pts, p.1 ∈ a.pts.map Prod.fst) (hkc : ∀ p ∈ c.pts, p.1 ∈ a.pts.map Prod.fst) (d e f : K) :
    ∃ r, cross [a, b, c] [d, e, f] = some r ∧ r.length = 3 ∧ VecOk D r ∧
      ∀ t u, eval [a, b, c] t = some u → eval r t = crossVec u [d, e, f] := by
  obtain ⟨oa, da⟩ := hx a (by simp)
  obtain ⟨r, k1, k2, k3, k4⟩ := setAll_linear (g := fun u => crossVec u [d, e, f]) (A := crossRows d e f) hx (by simp) rfl
    (fun i a b ha hb t => by rw [ha, Option.some.injEq] at hb; rw [hb])
    (ts := a.pts.map Prod.fst) (sortedPts_iff.mp oa.sorted) (by rw [← da]; exact oa.dom)
    (fun q hq p hp => by
      simp only [List.mem_cons, List.not_mem_nil, or_false] at hq
      rcases hq with rfl | rfl | rfl
      · exact List.mem_map_of_mem hp
      · exact hkb p hp
      · exact hkc p hp)
    (by intro r hr; simp only [crossRows, List.mem_cons, List.not_mem_nil, or_false] at hr; rcases hr with rfl | rfl | rfl <;> rfl) (by simp [crossRows])
    (fun u hu => crossVec_eq hu)
  refine ⟨r, by unfold cross; rw [if_pos ⟨rfl, rfl⟩]; exact k1, k2, k3, fun t u hu => ?_⟩
  rw [k4 t u hu, crossVec_eq]
  exact (eval_iff.mp hu).1

end Codac.TVec
