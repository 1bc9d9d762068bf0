import Verif.Paving.Copy
import Verif.Props.PavLife

/-!
# C149: copies and assignments of `Paving`, flags, reset
-/

set_option linter.unusedSectionVars false

namespace Codac.Props
open Codac.PavLife

section memory
variable {V : Type*}

/-- every node has two children or none -/
def TwoOrNone : VTree V → Prop
  | .nil => True
  | .node _ l r => (l = .nil ↔ r = .nil) ∧ TwoOrNone l ∧ TwoOrNone r

theorem ptsTo_none {m : Mem V} {t : VTree V} {L : List Nat} (h : PtsTo m t none L) : t = .nil ∧ L = [] := by
  cases t with
  | nil => exact ⟨rfl, h.2⟩
  | node v l r => obtain ⟨a, o, L1, L2, e, -⟩ := h; cases e

theorem ptsTo_some {m : Mem V} {t : VTree V} {a : Nat} {L : List Nat} (h : PtsTo m t (some a) L) : t ≠ .nil := by
  rintro rfl; cases h.1

/-- what a copy of a pointer does: another tree, equal, at new addresses -/
def Cloned (m m' : Mem V) (t : VTree V) (q : Nat) (L' : List Nat) : Prop :=
  PtsTo m' t (some q) L' ∧ L'.Nodup ∧ (∀ b ∈ L', m.next ≤ b ∧ b < m'.next) ∧ m.next ≤ m'.next ∧ (∀ b, b ∉ L' → m'.cell b = m.cell b) ∧ Fresh m'

theorem alive_lt {m : Mem V} (hm : Fresh m) {t : VTree V} {p : Option Nat} {L : List Nat} (h : PtsTo m t p L) : ∀ b ∈ L, b < m.next := fun b hb => by
  by_contra hc
  exact ptsTo_alive h b hb (hm b (not_lt.mp hc))

theorem children_spec {cl : Mem V → Nat → Option (Mem V × Nat)} {N : Nat}
    (hcl : ∀ (m : Mem V) (t : VTree V) (a : Nat) (L : List Nat), Fresh m → PtsTo m t (some a) L → TwoOrNone t → t.levels ≤ N → ∃ m' q L', cl m a = some (m', q) ∧ Cloned m m' t q L')
    {m : Mem V} (hm : Fresh m) {o : Obj V} {l r : VTree V} {L1 L2 : List Nat} (h1 : PtsTo m l o.left L1) (h2 : PtsTo m r o.right L2) (ht : TwoOrNone (.node o.val l r))
    (hl : l.levels ≤ N) (hr : r.levels ≤ N) :
    ∃ m' o' M1 M2, children cl m o = some (m', o') ∧ o'.val = o.val ∧ PtsTo m' l o'.left M1 ∧ PtsTo m' r o'.right M2 ∧ (M1 ++ M2).Nodup ∧
      (∀ b ∈ M1 ++ M2, m.next ≤ b ∧ b < m'.next) ∧ m.next ≤ m'.next ∧ (∀ b, b ∉ M1 ++ M2 → m'.cell b = m.cell b) ∧ Fresh m' := by
  obtain ⟨t1, t2, t3⟩ := ht
  cases e1 : o.left with
  | none =>
    rw [e1] at h1
    obtain ⟨rfl, rfl⟩ := ptsTo_none h1
    obtain rfl := t1.mp rfl
    exact ⟨m, ⟨o.val, none, none⟩, [], [], by unfold children; rw [e1], rfl, ⟨rfl, rfl⟩, ⟨rfl, rfl⟩, by simp, by simp, le_rfl, by simp, hm⟩
  | some a =>
    rw [e1] at h1
    cases e2 : o.right with
    | none =>
      rw [e2] at h2
      exact absurd (t1.mpr (ptsTo_none h2).1) (ptsTo_some h1)
    | some c =>
      rw [e2] at h2
      obtain ⟨m1, q1, M1, k1, p1, n1, r1, s1, c1, f1⟩ := hcl m l a L1 hm h1 t2 hl
      obtain ⟨m2, q2, M2, k2, p2, n2, r2, s2, c2, f2⟩ := hcl m1 r c L2 f1 (ptsTo_congr h2 fun b hb => c1 b fun hb' => by
        have := alive_lt hm h2 b hb; have := (r1 b hb').1; omega) t3 hr
      refine ⟨m2, ⟨o.val, some q1, some q2⟩, M1, M2, by unfold children; rw [e1, e2]; simp only [k1, k2, Option.bind_some, Option.map_some], rfl,
        ptsTo_congr p1 fun b hb => c2 b fun hb' => ?_, p2, ?_, fun b hb => ?_, by omega, fun b hb => ?_, f2⟩
      · have := r1 b hb; have := r2 b hb'; omega
      · rw [List.nodup_append]
        refine ⟨n1, n2, fun b hb c hc e => ?_⟩
        have := r1 b hb; have := r2 c hc; omega
      · rcases List.mem_append.mp hb with hb | hb
        · have := r1 b hb; omega
        · have := r2 b hb; omega
      · simp only [List.mem_append, not_or] at hb
        rw [c2 b hb.2, c1 b hb.1]

theorem clone_spec : ∀ (fuel : Nat) (m : Mem V) (t : VTree V) (a : Nat) (L : List Nat), Fresh m → PtsTo m t (some a) L → TwoOrNone t → t.levels ≤ fuel →
    ∃ m' q L', clone fuel m a = some (m', q) ∧ Cloned m m' t q L'
  | 0, m, t, a, L, _, h, _, hf => by
    cases t with
    | nil => cases h.1
    | node v l r => simp [VTree.levels] at hf
  | fuel + 1, m, t, a, L, hm, h, ht, hf => by
    cases t with
    | nil => cases h.1
    | node v l r =>
      obtain ⟨a', o, L1, L2, e, h1, rfl, h3, h4, rfl⟩ := h
      cases e
      simp only [VTree.levels] at hf
      have fa : Fresh (alloc m ⟨o.val, none, none⟩).1 := fun b hb => by
        have hb : m.next + 1 ≤ b := hb
        show (if b = m.next then _ else m.cell b) = none
        rw [if_neg (by omega)]; exact hm b (by omega)
      have ca : ∀ b, b ≠ m.next → (alloc m ⟨o.val, none, none⟩).1.cell b = m.cell b := fun b hb => if_neg hb
      obtain ⟨m', o', M1, M2, k1, k2, k3, k4, k5, k6, k7, k8, k9⟩ := children_spec (clone_spec fuel) fa
        (ptsTo_congr h3 fun b hb => ca b (by have := alive_lt hm h3 b hb; omega)) (ptsTo_congr h4 fun b hb => ca b (by have := alive_lt hm h4 b hb; omega)) ht
        (by omega) (by omega)
      have k6' : ∀ b ∈ M1 ++ M2, m.next + 1 ≤ b ∧ b < m'.next := k6
      have k7' : m.next + 1 ≤ m'.next := k7
      have cw : ∀ b, b ≠ m.next → (write m' m.next o').cell b = m'.cell b := fun b hb => if_neg hb
      refine ⟨write m' m.next o', m.next, m.next :: (M1 ++ M2), ?_, ⟨m.next, o', M1, M2, rfl, if_pos rfl, k2, ?_, ?_, rfl⟩, ?_, ?_, ?_, ?_, ?_⟩
      · rw [clone, h1, Option.bind_some]
        simp only [k1, Option.map_some]
        rfl
      · exact ptsTo_congr k3 fun b hb => cw b (by have := k6' b (by simp [hb]); omega)
      · exact ptsTo_congr k4 fun b hb => cw b (by have := k6' b (by simp [hb]); omega)
      · rw [List.nodup_cons]
        exact ⟨fun hc => by have := k6' _ hc; omega, k5⟩
      · intro b hb
        show m.next ≤ b ∧ b < m'.next
        rcases List.mem_cons.mp hb with rfl | hb
        · omega
        · have := k6' b hb; omega
      · show m.next ≤ m'.next; omega
      · intro b hb
        simp only [List.mem_cons, not_or] at hb
        rw [cw b hb.1, k8 b hb.2, ca b hb.1]
      · intro b hb
        have hb : m'.next ≤ b := hb
        rw [cw b (by omega)]
        exact k9 b hb

/-- **C149**: the copy of a paving is the same tree with the same values, made of other nodes; the paving copied is as before; the copy can be destroyed without changing it -/
theorem C149_copy {fuel : Nat} {m : Mem V} (hm : Fresh m) {o : Obj V} {t : VTree V} {L : List Nat} (h : IsTree m o t L) (ht : TwoOrNone t) (hf : t.levels ≤ fuel) :
    ∃ m' o' L', copyPav fuel m o = some (m', o') ∧ Fresh m' ∧ IsTree m' o' t L' ∧ IsTree m' o t L ∧ (∀ b ∈ L', m.cell b = none) ∧ (∀ b, b ∉ L' → m'.cell b = m.cell b) ∧
      ∃ m1, destroy fuel m' o' = some m1 ∧ m1.cell = m.cell := by
  have hh := h
  obtain ⟨l, r, L1, L2, rfl, h1, h2, rfl, hn⟩ := hh
  have hf' := hf
  simp only [VTree.levels] at hf'
  obtain ⟨m', o', M1, M2, k1, k2, k3, k4, k5, k6, k7, k8, k9⟩ := children_spec (clone_spec fuel) hm h1 h2 ht (by omega) (by omega)
  have hc : IsTree m' o' (.node o.val l r) (M1 ++ M2) := ⟨l, r, M1, M2, by rw [k2], k3, k4, rfl, k5⟩
  have lt : ∀ b ∈ L1 ++ L2, b < m.next := fun b hb => by
    rcases List.mem_append.mp hb with hb | hb
    · exact alive_lt hm h1 b hb
    · exact alive_lt hm h2 b hb
  have keep : ∀ b ∈ L1 ++ L2, m'.cell b = m.cell b := fun b hb => k8 b fun hb' => by
    have := k6 b hb'; have := lt b hb; omega
  refine ⟨m', o', M1 ++ M2, k1, k9, hc, ⟨l, r, L1, L2, rfl, ptsTo_congr h1 fun b hb => keep b (by simp [hb]), ptsTo_congr h2 fun b hb => keep b (by simp [hb]), rfl, hn⟩,
    fun b hb => hm b (k6 b hb).1, k8, ?_⟩
  obtain ⟨m3, d1, -, d2⟩ := C148_destroy hc hf
  refine ⟨m3, d1, funext fun b => ?_⟩
  rw [d2]
  by_cases hb : b ∈ M1 ++ M2
  · rw [if_pos hb, hm b (k6 b hb).1]
  · rw [if_neg hb, k8 b hb]

/-- **C149** (part): after `x = p`, `x` is the same tree as `p`, made of other nodes. Missing: the former nodes of `x`, see `C149_assign_leak_fails`, and `x = x`, see `C149_assign_self_fails` -/
theorem C149_assign_partial {fuel : Nat} {m : Mem V} (hm : Fresh m) {x o : Obj V} {t : VTree V} {L : List Nat} (h : IsTree m o t L) (ht : TwoOrNone t) (hf : t.levels ≤ fuel) :
    ∃ m' x' L', assignPav fuel m x o = some (m', x') ∧ IsTree m' x' t L' ∧ IsTree m' o t L ∧ (∀ b ∈ L', m.cell b = none) ∧ ∀ b, b ∉ L' → m'.cell b = m.cell b := by
  obtain ⟨m', x', L', e1, -, e2, e3, e4, e5, -⟩ := C149_copy hm h ht hf
  exact ⟨m', x', L', e1, e2, e3, e4, e5⟩

/-- **C149** does not hold for the assignment: the former nodes of `x` are still in memory when `x` and `p` have been destroyed -/
theorem C149_assign_leak_fails {fuel : Nat} {m : Mem V} (hm : Fresh m) {x o : Obj V} {t s : VTree V} {L M : List Nat} (h : IsTree m o t L) (ht : TwoOrNone t) (hf : t.levels ≤ fuel)
    (hx : IsTree m x s M) (hd : ∀ b ∈ M, b ∉ L) :
    ∃ m' x' m1 m2, assignPav fuel m x o = some (m', x') ∧ destroy fuel m' x' = some m1 ∧ destroy fuel m1 o = some m2 ∧ ∀ b ∈ M, m2.cell b ≠ none := by
  obtain ⟨m', x', L', e1, -, e2, e3, e4, e5, m1, d1, d2⟩ := C149_copy hm h ht hf
  have hc : IsTree m1 o t L := by
    obtain ⟨l, r, L1, L2, k1, k2, k3, k4, k5⟩ := h
    exact ⟨l, r, L1, L2, k1, ptsTo_congr k2 fun b _ => by rw [d2], ptsTo_congr k3 fun b _ => by rw [d2], k4, k5⟩
  obtain ⟨m2, d3, -, d4⟩ := C148_destroy hc hf
  refine ⟨m', x', m1, m2, e1, d1, d3, fun b hb => ?_⟩
  rw [d4, if_neg (hd b hb), d2]
  obtain ⟨l, r, L1, L2, -, k2, k3, rfl, -⟩ := hx
  rcases List.mem_append.mp hb with hb | hb
  · exact ptsTo_alive k2 b hb
  · exact ptsTo_alive k3 b hb

/-- **C149** does not hold for `x = x`: the paving becomes a leaf, its nodes are lost -/
theorem C149_assign_self_fails (fuel : Nat) (m : Mem V) (x : Obj V) : assignSelf fuel m x = some (m, ⟨x.val, none, none⟩) := rfl

/-- **C149** does not hold for the root of a copy: the values copied contain the pointer `m_root` of the original, which is the original itself; when the original (an object of
the heap) is deleted, the root of the copy is not alive -/
theorem C149_root_fails {W : Type*} {fuel : Nat} {m : Mem (W × Nat)} (hm : Fresh m) {a : Nat} {o : Obj (W × Nat)} {t : VTree (W × Nat)} {L : List Nat} (ha : m.cell a = some o)
    (hroot : o.val.2 = a) (h : IsTree m o t L) (ht : TwoOrNone t) (hf : t.levels ≤ fuel) :
    ∃ m' o' m1, copyPav fuel m o = some (m', o') ∧ o'.val.2 = a ∧ del (fuel + 1) m' (some a) = some m1 ∧ m1.cell o'.val.2 = none := by
  obtain ⟨m', o', L', e1, -, e2, e3, e4, e5, -⟩ := C149_copy hm h ht hf
  have hv : o'.val = o.val := by
    obtain ⟨l, r, L1, L2, k1, -⟩ := h
    obtain ⟨l', r', M1, M2, k2, -⟩ := e2
    rw [k1, VTree.node.injEq] at k2
    exact k2.1.symm
  have ha' : m'.cell a = some o := by rw [e5 a fun hb => by rw [e4 a hb] at ha; cases ha]; exact ha
  obtain ⟨m1, d1, -, d2⟩ := C148_destroy e3 hf
  refine ⟨m', o', free m1 a, e1, by rw [hv]; exact hroot, ?_, ?_⟩
  · rw [del, ha', Option.bind_some]
    unfold destroy at d1
    rw [Option.bind_eq_some_iff] at d1
    obtain ⟨m0, q1, q2⟩ := d1
    rw [q1, Option.bind_some, q2]; rfl
  · rw [hv, hroot]; exact if_pos rfl

/-- **C149**: `reset_paving` deletes all the nodes under the paving, which becomes a leaf -/
theorem C149_reset {fuel : Nat} {m : Mem V} {o : Obj V} {t : VTree V} {L : List Nat} (h : IsTree m o t L) (ht : TwoOrNone t) (hf : t.levels ≤ fuel) (set : V → V) :
    ∃ m', resetPav fuel m o set = some (m', ⟨set o.val, none, none⟩) ∧ ∀ b, m'.cell b = if b ∈ L then none else m.cell b := by
  obtain ⟨m', e1, -, e2⟩ := C148_destroy h hf
  obtain ⟨l, r, L1, L2, rfl, h1, h2, rfl, -⟩ := h
  unfold resetPav
  cases e : o.left with
  | some a => exact ⟨m', by simp only [e1, Option.map_some], e2⟩
  | none =>
    rw [e] at h1
    obtain ⟨rfl, rfl⟩ := ptsTo_none h1
    obtain rfl := ht.1.mp rfl
    obtain ⟨e3, rfl⟩ := h2
    exact ⟨m, by simp only [e3], by simp⟩

end memory

/-! ### Flags -/

/-- the flag at a position of the tree -/
def flagAt : FTree → List Bool → Option Bool
  | .nil, _ => none
  | .node f _ _, [] => some f
  | .node _ l r, b :: p => if b then flagAt r p else flagAt l p

/-- **C149**: `flag()` is true iff a node of the paving, itself included, has a flag; after `set_flag()` all its nodes have one, after `reset_flags()` none -/
theorem C149_flags (t : FTree) : (t.flag = true ↔ ∃ p, flagAt t p = some true) ∧
    (∀ p, flagAt t.setFlag p = (flagAt t p).map fun _ => true) ∧ ∀ p, flagAt t.resetFlags p = (flagAt t p).map fun _ => false := by
  induction t with
  | nil => simp [FTree.flag, flagAt, FTree.setFlag, FTree.resetFlags]
  | node f l r ihl ihr =>
    refine ⟨?_, ?_, ?_⟩
    · have hf : FTree.flag (.node f l r) = (f || l.flag || r.flag) := by
        simp only [FTree.flag]
        cases f <;> cases l.flag <;> simp
      rw [hf, Bool.or_eq_true, Bool.or_eq_true, ihl.1, ihr.1]
      constructor
      · rintro ((h | ⟨p, h⟩) | ⟨p, h⟩)
        · exact ⟨[], by rw [flagAt, h]⟩
        · exact ⟨false :: p, h⟩
        · exact ⟨true :: p, h⟩
      · rintro ⟨p, h⟩
        match p, h with
        | [], h => exact .inl (.inl (by simpa [flagAt] using h))
        | true :: p, h => exact .inr ⟨p, h⟩
        | false :: p, h => exact .inl (.inr ⟨p, h⟩)
    · intro p
      match p with
      | [] => rfl
      | true :: p => exact ihr.2.1 p
      | false :: p => exact ihl.2.1 p
    · intro p
      match p with
      | [] => rfl
      | true :: p => exact ihr.2.2 p
      | false :: p => exact ihl.2.2 p

example : FTree.flag (.node false (.node false .nil .nil) (.node true .nil .nil)) = true := by decide

/-- the hypotheses are met by a paving of three nodes -/
example : ∃ m' o' L', copyPav 2 threeNodes ⟨9, some 0, some 1⟩ = some (m', o') ∧ IsTree m' o' (.node 9 (.node 10 .nil .nil) (.node 11 .nil .nil)) L' := by
  obtain ⟨m', o', L', e1, -, e2, -⟩ := C149_copy (fuel := 2) (fun b hb => by
    have hb : 2 ≤ b := hb
    simp only [threeNodes]
    rw [if_neg (by omega), if_neg (by omega)]) threeNodes_tree (by simp [TwoOrNone]) le_rfl
  exact ⟨m', o', L', e1, e2⟩

end Codac.Props
