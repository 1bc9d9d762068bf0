import Verif.Thick.PavingProofs

/-!
# C106, C107: thick pavings

A thick set gives to every point one of three values: `yes` (in the subset), `maybe` (in the superset only), `no`.
-/

set_option linter.unusedSectionVars false

namespace Codac.Props

open SPav TPav TPav.TNode

section
variable {K : Type*} [Field K] [LinearOrder K] [IsStrictOrderedRing K]

/-- a test never excludes the value of a point of the box -/
def TestFor (S : List K → V3) (test : Box K → TB) : Prop := ∀ b x, InBox x b → (test b).has (S x) = true

/-- the leaves of a thick paving of the box `p`: they cover `p`, do not overlap, and the label of a leaf contains the values of its points -/
structure PavesFor (p : Box K) (S : List K → V3) (L : List (Box K × TB)) : Prop where
  covers : ∀ x, InBox x p → ∃ q ∈ L, InBox x q.1
  inside : ∀ q ∈ L, BoxLe q.1 p
  apart : L.Pairwise fun q q' => ∀ x, InInterior x q.1 → ¬ InInterior x q'.1
  labels : ∀ q ∈ L, ∀ x, InBox x q.1 → q.2.has (S x) = true

theorem pavesFor_of {n : Nat} {S : List K → V3} {t : TNode K} (h : Regular n t) (hS : RightLeaves S t) : PavesFor t.box S t.leaves :=
  ⟨fun _ hx => regular_cover h hx, fun _ hq => regular_leaf_le h hq, regular_disj h, hS⟩

theorem newValue_has {test : Box K → TB} {eps : K} {op : TB → TB → TB} {b : Box K} {v : TB} {s : V3} (h : (op v (test b)).has s = true) :
    (newValue test eps op b v).has s = true := by
  unfold newValue
  split
  · cases s <;> rfl
  · exact h

/-- one call on a thick paving -/
inductive TCall (K : Type*) [Field K] [LinearOrder K] where
  /-- `Sivia(test, eps, op)` with a test for the thick set `T` -/
  | sivia (test : Box K → TB) (T : List K → V3) (eps : K) (op : TB → TB → TB) (f : V3 → V3 → V3)
  /-- `change(op)` -/
  | change (op : TB → TB) (f : V3 → V3)
  /-- `Reunite()` -/
  | reunite

/-- the test is right, and the operator on the labels follows an operation on the values -/
def TCall.Ok : TCall K → Prop
  | .sivia test T eps op f => TestFor T test ∧ 0 < eps ∧ ∀ v w s s', v.has s = true → w.has s' = true → (op v w).has (f s s') = true
  | .change op f => ∀ v s, v.has s = true → (op v).has (f s) = true
  | .reunite => True

/-- the thick set after the call -/
def TCall.set (S : List K → V3) : TCall K → List K → V3
  | .sivia _ T _ _ f => fun x => f (S x) (T x)
  | .change _ f => fun x => f (S x)
  | .reunite => S

/-- the tree after the call -/
def TCall.run (bis : Box K → Box K × Box K) (fuel : Nat) (t : TNode K) : TCall K → Option (TNode K)
  | .sivia test _ eps op _ => TPav.sivia test bis eps op fuel t
  | .change op _ => some (t.change op)
  | .reunite => some t.reunite

theorem tcall_ok {n : Nat} {bis : Box K → Box K × Box K} (hbis : ∀ eps : K, 0 < eps → Cuts eps bis) {fuel : Nat} {S : List K → V3} {t t' : TNode K}
    (hr : Regular n t) (hS : Right S t) {c : TCall K} (hc : c.Ok) (h : c.run bis fuel t = some t') :
    t'.box = t.box ∧ Regular n t' ∧ Right (c.set S) t' := by
  cases c with
  | sivia test T eps op f =>
    obtain ⟨h1, h2, h3⟩ := hc
    obtain ⟨e1, e2, e3, _⟩ := sivia_ok (hbis eps h2) (Old := fun x v => v.has (S x) = true) (New := fun x v => v.has (f (S x) (T x)) = true)
      (fun b v x hx hv => newValue_has (h3 _ _ _ _ hv (h1 b x hx))) hr hS h
    exact ⟨e1, e2, e3⟩
  | change op f =>
    obtain rfl := Option.some.inj h
    exact ⟨(reunite_box _).trans (mapLeaves_box _ _), change_regular op hr, change_right hc hr hS.leaves⟩
  | reunite =>
    obtain rfl := Option.some.inj h
    exact ⟨reunite_box _, reunite_regular hr, reunite_right hr hS.leaves⟩

/-- a sequence of calls -/
def runCalls (bis : Box K → Box K × Box K) (fuel : Nat) : List (TCall K) → TNode K → Option (TNode K)
  | [], t => some t
  | c :: L, t => (c.run bis fuel t).bind (runCalls bis fuel L)

/-- the thick set after a sequence of calls -/
def setCalls : List (TCall K) → (List K → V3) → List K → V3
  | [], S => S
  | c :: L, S => setCalls L (c.set S)

theorem runCalls_ok {n : Nat} {bis : Box K → Box K × Box K} (hbis : ∀ eps : K, 0 < eps → Cuts eps bis) {fuel : Nat} {L : List (TCall K)}
    (hL : ∀ c ∈ L, c.Ok) {S : List K → V3} {t t' : TNode K} (hr : Regular n t) (hS : Right S t) (h : runCalls bis fuel L t = some t') :
    t'.box = t.box ∧ Regular n t' ∧ Right (setCalls L S) t' := by
  induction L generalizing S t with
  | nil => obtain rfl := Option.some.inj h; exact ⟨rfl, hr, hS⟩
  | cons c L ih =>
    rw [runCalls] at h
    cases e : c.run bis fuel t with
    | none => rw [e] at h; cases h
    | some t1 =>
      rw [e] at h
      obtain ⟨h1, h2, h3⟩ := tcall_ok hbis hr hS (hL c (by simp)) e
      obtain ⟨i1, i2, i3⟩ := ih (fun c hc => hL c (List.mem_cons_of_mem _ hc)) h2 h3 h
      exact ⟨i1.trans h1, i2, i3⟩

/-- C106, the constructor from a box and a test: the leaves pave the box, their labels contain the values of their points, and the leaves
which may have points with different values are not wider than `eps` -/
theorem C106_build {n : Nat} {S : List K → V3} {test : Box K → TB} (ht : TestFor S test) {bis : Box K → Box K × Box K} {eps : K}
    (hbis : Cuts eps bis) {fuel : Nat} {p : Box K} (hp : p.length = n ∧ Bnd p ∧ Solid p) {t : TNode K}
    (h : build test bis eps TB.opInter fuel p = some t) :
    PavesFor p S t.leaves ∧ (∀ q ∈ t.leaves, q.2.isSingleton = true ∨ maxDiamGt eps q.1 = false) ∧
      t.box = p ∧ Regular n t ∧ Right S t := by
  have hid : ∀ w : TB, TB.opInter .maybe w = w := by intro w; cases w <;> rfl
  obtain ⟨e1, e2, e3, e4⟩ := sivia_ok hbis (Old := fun _ v => v = .maybe) (New := fun x v => v.has (S x) = true)
      (fun b v x hx hv => newValue_has (by rw [hv, hid]; exact ht b x hx)) (t := leaf p .maybe) hp (fun _ _ => rfl) h
  have e1' : t.box = p := e1
  refine ⟨?_, e4, e1', e2, e3⟩
  have := pavesFor_of e2 (Right.leaves e3)
  rwa [e1'] at this

/-- C106, `Sivia` on a paving: the labels contain the values of the points for the combination of the two thick sets, for every operator on
labels which is right for the operation on values -/
theorem C106_sivia {n : Nat} {S T R : List K → V3} {test : Box K → TB} (ht : TestFor T test) {op : TB → TB → TB}
    (hop : ∀ x v w, v.has (S x) = true → w.has (T x) = true → (op v w).has (R x) = true) {bis : Box K → Box K × Box K} {eps : K}
    (hbis : Cuts eps bis) {fuel : Nat} {t t' : TNode K} (hr : Regular n t) (hS : Right S t) (h : sivia test bis eps op fuel t = some t') :
    PavesFor t.box R t'.leaves ∧ (∀ q ∈ t'.leaves, q.2.isSingleton = true ∨ maxDiamGt eps q.1 = false) ∧ Regular n t' ∧ Right R t' := by
  obtain ⟨e1, e2, e3, e4⟩ := sivia_ok hbis (Old := fun x v => v.has (S x) = true) (New := fun x v => v.has (R x) = true)
    (fun b v x hx hv => newValue_has (hop x _ _ hv (ht b x hx))) hr hS h
  refine ⟨?_, e4, e2, e3⟩
  have := pavesFor_of e2 (Right.leaves e3)
  rwa [e1] at this

/-- C106: the operators `&` (two tests for the same set), `&&` (intersection) and `||` (union) are right -/
theorem C106_operators {S T : List K → V3} :
    (∀ (x : List K) (v w : TB), v.has (S x) = true → w.has (S x) = true → (v.opInter w).has (S x) = true) ∧
    (∀ (x : List K) (v w : TB), v.has (S x) = true → w.has (T x) = true → (v.opAnd w).has ((S x).and (T x)) = true) ∧
    (∀ (x : List K) (v w : TB), v.has (S x) = true → w.has (T x) = true → (v.opOr w).has ((S x).or (T x)) = true) :=
  ⟨fun _ _ _ => TB.inter_sound, fun _ _ _ => TB.and_sound, fun _ _ _ => TB.or_sound⟩

/-- C106, `Reunite`: the same box, paved; the labels are still right -/
theorem C106_reunite {n : Nat} {S : List K → V3} {t : TNode K} (hr : Regular n t) (hS : RightLeaves S t) :
    PavesFor t.box S t.reunite.leaves ∧ Regular n t.reunite ∧ Right S t.reunite := by
  have h := reunite_right hr hS
  have := pavesFor_of (reunite_regular hr) (Right.leaves h)
  rw [reunite_box] at this
  exact ⟨this, reunite_regular hr, h⟩

/-- the values of the superset, and of the subset, as sets without doubt -/
def upper : V3 → V3
  | .no => .no
  | _ => .yes
def lower : V3 → V3
  | .yes => .yes
  | _ => .no

/-- C106, `change`: the leaves are labelled for the image of the values; right for the complement, the superset and the subset -/
theorem C106_change {n : Nat} {S : List K → V3} {op : TB → TB} {g : V3 → V3} (hop : ∀ v s, v.has s = true → (op v).has (g s) = true) {t : TNode K}
    (hr : Regular n t) (hS : RightLeaves S t) : PavesFor t.box (fun x => g (S x)) (t.change op).leaves ∧ Regular n (t.change op) := by
  have h := change_right hop hr hS
  have := pavesFor_of (change_regular op hr) (Right.leaves h)
  rw [show (t.change op).box = t.box from (reunite_box _).trans (mapLeaves_box _ _)] at this
  exact ⟨this, change_regular op hr⟩

theorem C106_change_operators : (∀ v s, v.has s = true → (TB.opNot v).has s.not = true) ∧
    (∀ v s, v.has s = true → (TB.opUpper v).has (upper s) = true) ∧ (∀ v s, v.has s = true → (TB.opLower v).has (lower s) = true) := by
  refine ⟨fun v s => TB.not_sound, ?_, ?_⟩ <;> intro v s <;> cases v <;> cases s <;> decide

/-- C106: after the constructor and any sequence of `Sivia`, `change` and `Reunite`, the leaves pave the box and their labels contain the values of
their points for the thick set computed with the same operations -/
theorem C106_history {n : Nat} {S : List K → V3} {test : Box K → TB} (ht : TestFor S test) {bis : Box K → Box K × Box K}
    (hbis : ∀ eps : K, 0 < eps → Cuts eps bis) {eps : K} (he : 0 < eps) {fuel : Nat} {p : Box K} (hp : p.length = n ∧ Bnd p ∧ Solid p)
    {L : List (TCall K)} (hL : ∀ c ∈ L, c.Ok) {t : TNode K}
    (h : (build test bis eps TB.opInter fuel p).bind (runCalls bis fuel L) = some t) :
    PavesFor p (setCalls L S) t.leaves ∧ t.box = p ∧ Regular n t ∧ Right (setCalls L S) t := by
  cases e : build test bis eps TB.opInter fuel p with
  | none => rw [e] at h; cases h
  | some t0 =>
    rw [e] at h
    obtain ⟨_, _, h1, h2, h3⟩ := C106_build ht (hbis eps he) hp e
    obtain ⟨i1, i2, i3⟩ := runCalls_ok hbis hL h2 h3 h
    have := pavesFor_of i2 (Right.leaves i3)
    rw [i1, h1] at this
    exact ⟨this, i1.trans h1, i2, i3⟩

/-- C106: `Sivia` ends on every paving of a bounded box, for every test and every operator -/
theorem C106_terminates [Archimedean K] {n : Nat} (hn : 0 < n) (test : Box K → TB) {ratio : K} (h0 : 0 < ratio) (h1 : ratio < 1) {eps : K} (he : 0 < eps)
    (op : TB → TB → TB) {t : TNode K} (ht : Regular n t) :
    ∃ N, ∀ fuel, N ≤ fuel → ∃ t', sivia test (largestFirst ratio) eps op fuel t = some t' :=
  sivia_terminates hn test (largestFirst_isBis ratio) (largestFirst_spec h0 h1) (le_max_of_le_left h0.le) (max_lt h1 (by linarith)) he op ht

/-- the bisector `LargestFirst` with ratio `0.5` cuts the boxes -/
theorem C106_bisector : ∀ eps : K, 0 < eps → Cuts eps (largestFirst (1 / 2 : K)) :=
  fun _ he => largestFirst_isCut (by norm_num) (by norm_num) he.le

/-! ### C107 -/

/-- C107, `contains`: the answer contains the value of every point of the box, the points out of the paved box having the value `maybe`, when the
part of the box inside the paved box is not flat -/
theorem C107_contains {n : Nat} {S : List K → V3} {t : TNode K} (hr : Regular n t) (hS : RightLeaves S t) {X : Box K} (hX : X.length = n) :
    ∃ r, TPav.contains t X = some r ∧
      (∀ x, InBox x X → InBox x t.box → isFlat (t.box.inter X) = false → r.has (S x) = true) ∧
      (∀ x, InBox x X → ¬ InBox x t.box → r.has .maybe = true) := by
  obtain ⟨r, e⟩ := labelLoop_some X (fuel := t.size) (L := [t]) (res := .empty) (by simp)
  refine ⟨if X.isSubset t.box then r else TB.maybe.opUnion r, by unfold TPav.contains; rw [e]; rfl, fun x hx hxt hf => ?_, fun x hx hxt => ?_⟩
  · have := labelLoop_sound (n := n) (S := S) (x := x) (L := [t]) (by simpa using ⟨hr, hS⟩) e (.inr ⟨t, by simp, fat_iff.2 ⟨hf, hxt, hx⟩⟩)
    split
    · exact this
    · exact TB.union_right this
  · rw [if_neg fun h => hxt (mem_of_isSubset (hX.trans hr.root.1.symm) h hx)]
    exact TB.union_left rfl

/-- C107, `ctcOutside`: ends, gives a part of the box, and keeps the points which are not out of the superset, when the box is not flat -/
theorem C107_outside {n : Nat} {S : List K → V3} {t : TNode K} (hr : Regular n t) (hS : RightLeaves S t) {X : Box K} (hX : X.length = n) :
    ∃ R, ctcOutside t X = some R ∧ BoxLe R X ∧ (isFlat X = false → ∀ x, InBox x X → S x ≠ .no → InBox x R) := by
  obtain ⟨R, h1, h2, h3⟩ := ctcDrop_ok (drop := .out) hr hS hX
  refine ⟨R, h1, h2, fun hf x hx hs => h3 hf x hx ?_⟩
  revert hs; cases S x <;> simp [TB.has]

/-- C107, `ctcInside`: ends, gives a part of the box, and keeps the points which are not in the subset, when the box is not flat -/
theorem C107_inside {n : Nat} {S : List K → V3} {t : TNode K} (hr : Regular n t) (hS : RightLeaves S t) {X : Box K} (hX : X.length = n) :
    ∃ R, ctcInside t X = some R ∧ BoxLe R X ∧ (isFlat X = false → ∀ x, InBox x X → S x ≠ .yes → InBox x R) := by
  obtain ⟨R, h1, h2, h3⟩ := ctcDrop_ok (drop := .in_) hr hS hX
  refine ⟨R, h1, h2, fun hf x hx hs => h3 hf x hx ?_⟩
  revert hs; cases S x <;> simp [TB.has]

/-- C107, `ctcTransform`: ends, gives a part of the box of translations, and keeps every translation which sends the points of the subset of the first
thick set (in the paved box) to points which are not out of the superset of the second; flat boxes of translations included -/
theorem C107_transform {n : Nat} (A : IArith K) {SA SB : List K → V3} {t B : TNode K} (ht : Regular n t) (hSA : RightLeaves SA t)
    (hB : Regular n B) (hSB : RightLeaves SB B) {T : Box K} (hT : T.length = n) :
    ∃ R, TPav.ctcTransform A t B T = some R ∧ BoxLe R T ∧
      ∀ x, InBox x T → (∀ a, InBox a t.box → SA a = .yes → SB (List.zipWith (· + ·) x a) ≠ .no) → InBox x R := by
  obtain ⟨R, h1, h2, h3⟩ := transformLoop_ok (SA := SA) A hB hSB (fuel := t.size) (L := [t]) (by simp) (by simpa using ⟨ht, hSA⟩) hT
  refine ⟨R, h1, h2, fun x hx hall => h3 x hx ?_⟩
  rintro a ha ⟨t', ht', hat⟩
  simp only [List.mem_cons, List.not_mem_nil, or_false] at ht'
  subst ht'
  exact hall a hat ha

/-- C107, `is_empty`: true only if no point of the paved box is in the superset, and true if every leaf is labelled `OUT` -/
theorem C107_isEmpty {n : Nat} {S : List K → V3} {t : TNode K} (hr : Regular n t) (hS : RightLeaves S t) :
    (t.isEmpty = true → ∀ x, InBox x t.box → S x = .no) ∧ ((∀ q ∈ t.leaves, q.2 = .out) → t.isEmpty = true) := by
  constructor
  · intro h x hx
    unfold TNode.isEmpty at h
    rw [decide_eq_true_eq] at h
    have := (reunite_right hr hS).root x (by rw [reunite_box]; exact hx)
    rw [h] at this
    exact eq_no this
  · intro h
    unfold TNode.isEmpty
    rw [reunite_all_out h]
    rfl

theorem hasIn_leaf {t : TNode K} (h : t.hasIn = true) : ∃ b, (b, TB.in_) ∈ t.leaves := by
  induction t with
  | leaf b v =>
    rw [hasIn, decide_eq_true_eq] at h
    subst h
    exact ⟨b, by simp [TNode.leaves]⟩
  | node b v l r ihl ihr =>
    rw [hasIn, Bool.or_eq_true] at h
    rcases h with h | h
    · obtain ⟨b, hb⟩ := ihl h
      exact ⟨b, List.mem_append_left _ hb⟩
    · obtain ⟨b, hb⟩ := ihr h
      exact ⟨b, List.mem_append_right _ hb⟩

/-- C107, `check_empty`: `OUT` only if no point is in the superset, `IN` only if some point is in the subset -/
theorem C107_checkEmpty {n : Nat} {S : List K → V3} {t : TNode K} (hr : Regular n t) (hS : RightLeaves S t) :
    (t.checkEmpty = .out → ∀ x, InBox x t.box → S x = .no) ∧ (t.checkEmpty = .in_ → ∃ x, InBox x t.box ∧ S x = .yes) := by
  unfold TNode.checkEmpty
  constructor
  · intro h
    split at h
    · rename_i he; exact (C107_isEmpty hr hS).1 he
    · split at h <;> cases h
  · intro h
    split at h
    · cases h
    · split at h
      · rename_i hi
        obtain ⟨b, hb⟩ := hasIn_leaf hi
        have hreg := reunite_regular hr
        have hx := (midBox_interior (regular_leaf_solid hreg hb)).inBox
        refine ⟨midBox b, ?_, eq_yes ((Right.leaves (reunite_right hr hS)) _ hb _ hx)⟩
        have := hx.of_le (regular_leaf_le hreg hb)
        rwa [reunite_box] at this
      · cases h

/-- C107, `erode`: `IN` only if no point of the paved box is in the superset, `OUT` only if some point is in the subset -/
theorem C107_erode {n : Nat} {S : List K → V3} {test : Box K → TB} (ht : TestFor S test) {mid : Box K → List K}
    (hmid : ∀ b, b.length = n → Bnd b → Solid b → InBox (mid b) b) {bis : Box K → Box K × Box K} {eps : K} (hbis : Cuts eps bis) {fuel : Nat}
    {t : TNode K} (hr : Regular n t) {r : TB} (h : erode test mid bis eps fuel t = some r) :
    (r = .in_ → ∀ x, InBox x t.box → S x = .no) ∧ (r = .out → ∃ x, InBox x t.box ∧ S x = .yes) := by
  unfold erode at h
  cases e1 : erode1 test mid bis eps fuel t with
  | none => rw [e1] at h; cases h
  | some p =>
    rw [e1] at h
    simp only [Option.bind_some] at h
    split at h
    · rename_i hc
      obtain rfl := Option.some.inj h
      rw [Bool.and_eq_true, Bool.not_eq_true', decide_eq_true_eq] at hc
      obtain ⟨k1, k2, k3⟩ := erode1_ok ht hbis hr e1 hc.1
      refine ⟨fun _ x hx => (C107_checkEmpty k2 (Right.leaves k3)).1 hc.2 x (by rw [k1]; exact hx), fun h => by cases h⟩
    · cases e2 : erode2 test mid bis eps fuel t.box with
      | none => rw [e2] at h; cases h
      | some f =>
        rw [e2] at h
        obtain rfl := Option.some.inj h
        cases f with
        | true => exact ⟨fun h => (by cases h), fun _ => erode2_ok ht hmid hbis hr.root e2⟩
        | false => exact ⟨fun h => (by cases h), fun h => (by cases h)⟩

/-- C107: `erode` ends -/
theorem C107_erode_terminates [Archimedean K] {n : Nat} (hn : 0 < n) (test : Box K → TB) (mid : Box K → List K) {ratio : K} (h0 : 0 < ratio)
    (h1 : ratio < 1) {eps : K} (he : 0 < eps) {t : TNode K} (ht : Regular n t) :
    ∃ N, ∀ fuel, N ≤ fuel → ∃ r, erode test mid (largestFirst ratio) eps fuel t = some r := by
  have hc0 : 0 ≤ max ratio (1 - ratio) := le_max_of_le_left h0.le
  have hc1 : max ratio (1 - ratio) < 1 := max_lt h1 (by linarith)
  obtain ⟨N, hN⟩ := erode1_terminates hn test mid (largestFirst_isBis ratio) (largestFirst_spec h0 h1) hc0 hc1 he ht
  refine ⟨max N (Sivia.boxRank (max ratio (1 - ratio)) eps t.box + 1), fun fuel hf => ?_⟩
  obtain ⟨p, hp⟩ := hN fuel (by omega)
  obtain ⟨f, hf⟩ := erode2_terminates hn test mid (largestFirst_isBis ratio) (largestFirst_spec h0 h1) hc0 hc1 he _ fuel (by omega) ht.root.1 ht.root.2.1
    le_rfl
  unfold erode
  rw [hp]
  simp only [Option.bind_some]
  split
  · exact ⟨_, rfl⟩
  · rw [hf]; exact ⟨_, rfl⟩

end

/-! ### Cases -/

/-- the thick set of the line with the subset `x ≤ 1` and the superset `x ≤ 2` -/
def stair : List ℚ → V3
  | [a] => if a ≤ 1 then .yes else if a ≤ 2 then .maybe else .no
  | _ => .no

/-- a test for it -/
def stairTest : Box ℚ → TB
  | [.mk (some a) (some b) _] =>
    if b ≤ 1 then .in_ else if 2 < a then .out else if 1 < a ∧ b ≤ 2 then .maybe else if b ≤ 2 then .maybeIn else if 1 < a then .maybeOut else .unk
  | _ => .unk

theorem stairTest_ok : TestFor stair stairTest := by
  intro b x hx
  have hunk : ∀ s : V3, TB.unk.has s = true := by intro s; cases s <;> rfl
  unfold stairTest
  split
  · rename_i l u _
    cases hx with
    | @cons a _ x _ ha hx =>
      cases hx
      have h1 : l ≤ a := ha.1
      have h2 : a ≤ u := ha.2
      unfold stair
      simp only
      by_cases a1 : a ≤ 1
      · rw [if_pos a1, if_neg (by linarith : ¬ 2 < l), if_neg (by rintro ⟨h, _⟩; linarith : ¬ (1 < l ∧ u ≤ 2)), if_neg (by linarith : ¬ 1 < l)]
        split_ifs <;> rfl
      · rw [if_neg a1, if_neg (by intro h; linarith : ¬ u ≤ 1)]
        by_cases a2 : a ≤ 2
        · rw [if_pos a2, if_neg (by linarith : ¬ 2 < l)]
          split_ifs <;> rfl
        · rw [if_neg a2, if_neg (by rintro ⟨_, h⟩; linarith : ¬ (1 < l ∧ u ≤ 2)), if_neg (by intro h; linarith : ¬ u ≤ 2)]
          split_ifs <;> rfl
  · exact hunk _

/-- the box `[0,4]` -/
def stairBox : Box ℚ := [Itv.icc 0 4]

theorem stairBox_ok : stairBox.length = 1 ∧ Bnd stairBox ∧ Solid stairBox :=
  ⟨rfl, by intro I hI; simp only [stairBox, List.mem_cons, List.not_mem_nil, or_false] at hI; subst hI; decide, by unfold Solid; decide⟩

/-- the tree built for it with the precision `1/2` -/
def stairTree : Option (TNode ℚ) := build stairTest (largestFirst (1 / 2)) (1 / 2) TB.opInter 10 stairBox

/-- the leaves `[0,1]`, `[1,1.5]`, `[1.5,2]`, `[2,2.5]`, `[2.5,3]`, `[3,4]` and their labels -/
example : stairTree.map TNode.leaves = some [([Itv.icc 0 1], .in_), ([Itv.icc 1 (3 / 2)], .maybeIn), ([Itv.icc (3 / 2) 2], .maybe),
    ([Itv.icc 2 (5 / 2)], .maybeOut), ([Itv.icc (5 / 2) 3], .out), ([Itv.icc 3 4], .out)] := by decide +kernel

/-- `C106_build` applies -/
example (t : TNode ℚ) (h : stairTree = some t) : PavesFor stairBox stair t.leaves :=
  (C106_build stairTest_ok (C106_bisector (1 / 2) (by norm_num)) stairBox_ok h).1

/-- a sequence of calls: complement, intersection with the set itself, and `Reunite` -/
def stairCalls : List (TCall ℚ) := [.change TB.opNot V3.not, .sivia stairTest stair (1 / 4) TB.opAnd V3.and, .reunite]

theorem stairCalls_ok : ∀ c ∈ stairCalls, c.Ok := by
  intro c hc
  simp only [stairCalls, List.mem_cons, List.not_mem_nil, or_false] at hc
  rcases hc with rfl | rfl | rfl
  · exact fun v s => TB.not_sound
  · exact ⟨stairTest_ok, by norm_num, fun v w s s' => TB.and_sound⟩
  · trivial

/-- `C106_history` applies; what is known of the intersection of the set and its complement -/
example : (stairTree.bind (runCalls (largestFirst (1 / 2)) 10 stairCalls)).map TNode.leaves =
    some [([Itv.icc 0 1], .out), ([Itv.icc 1 (3 / 2)], .maybeOut), ([Itv.icc (3 / 2) 2], .maybe), ([Itv.icc 2 (9 / 4)], .maybeOut),
      ([Itv.icc (9 / 4) (5 / 2)], .out), ([Itv.icc (5 / 2) 3], .out), ([Itv.icc 3 4], .out)] := by decide +kernel

/-- the answers of `contains` on two boxes -/
example : (stairTree.bind fun t => TPav.contains t [Itv.icc 0 (1 / 2)]) = some .in_ ∧
    (stairTree.bind fun t => TPav.contains t [Itv.icc (5 / 2) 3]) = some .out ∧
    (stairTree.bind fun t => TPav.contains t [Itv.icc (5 / 4) 5]) = some .unk := by decide +kernel

/-- the contractors contract -/
example : (stairTree.bind fun t => ctcOutside t [Itv.icc (5 / 4) (15 / 4)]) = some [Itv.icc (5 / 4) (5 / 2)] ∧
    (stairTree.bind fun t => ctcInside t [Itv.icc (1 / 4) (15 / 4)]) = some [Itv.icc 1 (15 / 4)] ∧
    (stairTree.bind fun t => TPav.ctcTransform (IArith.exact ℚ) t t [Itv.icc 0 3]) = some [Itv.icc 0 (5 / 2)] := by decide +kernel

/-- the two answers of `check_empty` and `erode` -/
example : stairTree.map TNode.checkEmpty = some .in_ ∧
    (stairTree.bind fun t => TPav.erode stairTest midBox (largestFirst (1 / 2)) (1 / 2) 20 t) = some .out ∧
    TPav.erode stairTest midBox (largestFirst (1 / 2)) (1 / 2) 20 (.leaf [Itv.icc (5 / 2) 5] .unk) = some .in_ := by decide +kernel

/-- `midBox` is a middle for `C107_erode` -/
example (b : Box ℚ) (_ : b.length = 1) (_ : Bnd b) (h : Solid b) : InBox (midBox b) b := (midBox_interior h).inBox

/-- C107, `contains` on a flat box (here the point `1/2`, in the subset): the answer is `EMPTY`; on a box which only touches the paved box (here `[4,5]`,
the common point being out of the superset): the answer is `MAYBE` -/
theorem C107_contains_fails : ∃ t : TNode ℚ, Regular 1 t ∧ RightLeaves stair t ∧
    (∃ r, TPav.contains t [Itv.point (1 / 2)] = some r ∧ stair [1 / 2] = .yes ∧ r.has .yes = false) ∧
    (∃ r, TPav.contains t [Itv.icc 4 5] = some r ∧ InBox [4] t.box ∧ stair [4] = .no ∧ r.has .no = false) := by
  cases h : stairTree with
  | none => exact absurd h (by decide +kernel)
  | some t =>
    obtain ⟨_, _, hb, hr, hS⟩ := C106_build stairTest_ok (C106_bisector (1 / 2) (by norm_num)) stairBox_ok h
    have e1 : (stairTree.bind fun t => TPav.contains t [Itv.point (1 / 2)]) = some .empty := by decide +kernel
    have e2 : (stairTree.bind fun t => TPav.contains t [Itv.icc 4 5]) = some .maybe := by decide +kernel
    rw [h] at e1 e2
    refine ⟨t, hr, hS.leaves, ⟨_, e1, by decide +kernel, rfl⟩, ⟨_, e2, ?_, by decide +kernel, rfl⟩⟩
    rw [hb]
    exact .cons (by decide +kernel) .nil

/-- C107: the contractors empty a flat box, here the points `1/2` (in the subset) and `3` (out of the superset) -/
theorem C107_contractors_fails : ∃ t : TNode ℚ, Regular 1 t ∧ RightLeaves stair t ∧
    (∃ R, ctcOutside t [Itv.point (1 / 2)] = some R ∧ stair [1 / 2] ≠ .no ∧ ¬ InBox [1 / 2] R) ∧
    (∃ R, ctcInside t [Itv.point 3] = some R ∧ stair [3] ≠ .yes ∧ ¬ InBox [3] R) := by
  cases h : stairTree with
  | none => exact absurd h (by decide +kernel)
  | some t =>
    obtain ⟨_, _, hb, hr, hS⟩ := C106_build stairTest_ok (C106_bisector (1 / 2) (by norm_num)) stairBox_ok h
    have e1 : (stairTree.bind fun t => ctcOutside t [Itv.point (1 / 2)]) = some [⊥] := by decide +kernel
    have e2 : (stairTree.bind fun t => ctcInside t [Itv.point 3]) = some [⊥] := by decide +kernel
    rw [h] at e1 e2
    exact ⟨t, hr, hS.leaves, ⟨_, e1, by decide +kernel, fun hx => by cases hx with | cons h _ => exact Itv.not_mem_bot _ h⟩,
      ⟨_, e2, by decide +kernel, fun hx => by cases hx with | cons h _ => exact Itv.not_mem_bot _ h⟩⟩

end Codac.Props
