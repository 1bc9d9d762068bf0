import Verif.C2.TDomain
import Verif.Tube.Model

/-!
# Tubes of codac2: setting and evaluating

Models `codac2_Slice.h` (`set`, `is_empty`, `set_empty`, gates), `codac2_Tube.h` (`set`, `operator=`, `operator&=`, `eval(Interval)`) and
`codac2_TubeEvaluation.h` (`operator=`) for tubes of intervals. A slice of the tube `k` is given by its position in the list of the slices of the
temporal domain.
-/

set_option linter.unusedSectionVars false

namespace Codac.C2

variable {τ ι K : Type*} [LinearOrder τ] [LinearOrder K] [DecidableEq ι]

/-- `_codomain = v` for the slice of the tube `k` -/
def TS.put (k : ι) (v : Itv K) (s : TS τ ι K) : TS τ ι K := { s with val := Function.update s.val k v }

/-- `Slice::input_gate`, codac2_Slice.h:221-233; `r` is the slice before, if any -/
def inputGate (k : ι) (r : Option (TS τ ι K)) (s : TS τ ι K) : Itv K :=
  match r with
  | none => s.val k
  | some r => if r.IsGate then r.val k else s.val k ⊓ r.val k

/-- `Slice::output_gate`, codac2_Slice.h:235-247: the same with the slice after -/
def outputGate (k : ι) (r : Option (TS τ ι K)) (s : TS τ ι K) : Itv K :=
  match r with
  | none => s.val k
  | some r => if r.IsGate then r.val k else s.val k ⊓ r.val k

/-- `Slice::is_empty`, codac2_Slice.h:110-116 -/
def SliceEmpty (k : ι) (l : List (TS τ ι K)) (i : Nat) : Prop :=
  match l[i]? with
  | none => False
  | some s =>
    if s.IsGate then s.val k = ⊥
    else inputGate k (l.take i).getLast? s = ⊥ ∨ outputGate k l[i + 1]? s = ⊥

instance (k : ι) (l : List (TS τ ι K)) (i : Nat) : Decidable (SliceEmpty k l i) := by
  unfold SliceEmpty
  cases l[i]? with
  | none => exact inferInstanceAs (Decidable False)
  | some s => dsimp only; infer_instance

/-- `prev_slice_ptr()->_codomain &= x` when it is a gate, codac2_Slice.h:264-265 and 275-276; `r` is the neighbour -/
def capGate (k : ι) (x : Itv K) (r : TS τ ι K) : TS τ ι K := if r.IsGate then r.put k (r.val k ⊓ x) else r

/-- the first slice of the list is a neighbour -/
def capHead (k : ι) (x : Itv K) : List (TS τ ι K) → List (TS τ ι K)
  | [] => []
  | r :: q => capGate k x r :: q

/-- `Slice::set` without the propagation of emptiness, codac2_Slice.h:249-277 -/
def setCore (k : ι) (x : Itv K) (i : Nat) (l : List (TS τ ι K)) : List (TS τ ι K) :=
  match l[i]? with
  | none => l
  | some s =>
    if s.IsGate then
      l.take i ++ s.put k (infOpt (infOpt x ((l.take i).getLast?.map fun r => r.val k)) ((l.drop (i + 1)).head?.map fun r => r.val k)) ::
        l.drop (i + 1)
    else (capHead k x (l.take i).reverse).reverse ++ s.put k x :: capHead k x (l.drop (i + 1))

/-- `Slice::set(x)` on the slice `i` of the tube `k`, codac2_Slice.h:249-281; `set_empty(true, FORWARD|BACKWARD)` (283-294) empties the slice, all
the slices before and all the slices after -/
def setSlice (k : ι) (x : Itv K) (i : Nat) (l : List (TS τ ι K)) : List (TS τ ι K) :=
  if SliceEmpty k (setCore k x i l) i then (setCore k x i l).map (TS.put k ⊥) else setCore k x i l

/-- `Tube::set(codomain)`, codac2_Tube.h:307-318: the slices, then the gates -/
def setTube (k : ι) (x : Itv K) (l : List (TS τ ι K)) : List (TS τ ι K) :=
  let idx := List.range l.length
  let l1 := (idx.filter fun i => l[i]?.any fun s => !decide s.IsGate).foldl (fun l i => setSlice k x i l) l
  (idx.filter fun i => l[i]?.any fun s => decide s.IsGate).foldl (fun l i => setSlice k x i l) l1

/-- `Tube::operator=(x)`, codac2_Tube.h:100-110: the values `ys` of `x` are assigned slice by slice. Both tubes have the same temporal domain and are
different objects: the values of `x` do not change during the loop. -/
def assignTube (k : ι) (ys : List (Itv K)) (l : List (TS τ ι K)) : List (TS τ ι K) :=
  (List.range l.length).foldl (fun l i => setSlice k (ys.getD i ⊤) i l) l

/-- `Tube::operator&=(x)`, codac2_Tube.h:365-380; the values of `x`, another tube, do not change during the loop -/
def interTube (k : ι) (ys : List (Itv K)) (l : List (TS τ ι K)) : List (TS τ ι K) :=
  (List.range l.length).foldl (fun l i => setSlice k (((l[i]?.map fun s => s.val k).getD ⊤) ⊓ ys.getD i ⊤) i l) l

/-- the loop of `Tube::eval(Interval)`, codac2_Tube.h:297-302: `n` slices from the current one, stopped by a slice starting at `b` -/
def evalLoop (k : ι) (b : τ) : Nat → List (TS τ ι K) → Itv K → Itv K
  | 0, _, acc => acc
  | _, [], acc => acc
  | n + 1, s :: l, acc => if s.lb = b then acc else evalLoop k b n l (acc ⊔ s.val k)

/-- `Tube::eval([a,b])`, codac2_Tube.h:281-305 -/
def evalItv (k : ι) (a b : τ) (l : List (TS τ ι K)) : Itv K :=
  match l.head?, l.getLast? with
  | some f, some e =>
    if f.lb ≤ a ∧ b ≤ e.ub then
      if a = b then eval k a l
      else evalLoop k b (iter b l + 1 - iter a l) (l.drop (iter a l)) ((l[iter a l]?.map fun s => s.val k).getD ⊤)
    else ⊤
  | _, _ => ⊤

/-- the loop of `TubeEvaluation::operator=`, codac2_TubeEvaluation.h:37-40: `set(x)` from the slice `i` to the slice `j`, or to the last slice when
`j < i`; `n` bounds the number of iterations -/
def setLoop (k : ι) (x : Itv K) (j : Nat) : Nat → Nat → List (TS τ ι K) → List (TS τ ι K)
  | 0, _, l => l
  | n + 1, i, l =>
    let l' := setSlice k x i l
    if i ≠ j ∧ i + 1 < l'.length then setLoop k x j n (i + 1) l' else l'

/-- `x([a,b]) = v`, codac2_TubeEvaluation.h:20-45. The second sampling, at `b > a`, inserts slices after the one pointed by `it_lb`, whose
position does not change. `none`: `it_ub--` on the first slice or access to the slice after the last one, both undefined. -/
def assignAt (k : ι) (x : Itv K) (a b : τ) (l : List (TS τ ι K)) : Option (List (TS τ ι K)) :=
  if a = b then (sample l a true).map fun r => setSlice k x r.2 r.1
  else
    (sample l a false).bind fun r => (sample r.1 b false).bind fun r' =>
      if r'.2 = 0 then none
      else
        let i := if (r'.1[r.2]?.map fun s => s.ub) = some a then r.2 + 1 else r.2
        if i < r'.1.length then some (setLoop k x (r'.2 - 1) r'.1.length i r'.1) else none

/-! ### Specifications -/

/-- the function `f` lies in the tube `k`: in all the slices and gates -/
def Encl (l : List (TS τ ι K)) (k : ι) (f : τ → K) : Prop := ∀ s ∈ l, ∀ t, s.lb ≤ t → t ≤ s.ub → f t ∈ s.val k

/-- same temporal slices, same values of the tubes other than `k` -/
def SameOthers (k : ι) (l l' : List (TS τ ι K)) : Prop :=
  l'.map (fun s => (s.lb, s.ub)) = l.map (fun s => (s.lb, s.ub)) ∧ ∀ k' ≠ k, l'.map (fun s => s.val k') = l.map fun s => s.val k'

theorem encl_iff {l : List (TS τ ι K)} {k : ι} {f : τ → K} : Encl l k f ↔ ∀ t, Allows l k t (f t) :=
  ⟨fun h t s hs h1 h2 => h s hs t h1 h2, fun h s hs t h1 h2 => h t s hs h1 h2⟩

theorem encl_append {l l' : List (TS τ ι K)} {k : ι} {f : τ → K} : Encl (l ++ l') k f ↔ Encl l k f ∧ Encl l' k f := by
  simp only [Encl, List.mem_append]
  exact ⟨fun h => ⟨fun s hs => h s (.inl hs), fun s hs => h s (.inr hs)⟩, fun h s hs => hs.elim (h.1 s) (h.2 s)⟩

theorem encl_cons {s : TS τ ι K} {l : List (TS τ ι K)} {k : ι} {f : τ → K} :
    Encl (s :: l) k f ↔ (∀ t, s.lb ≤ t → t ≤ s.ub → f t ∈ s.val k) ∧ Encl l k f := by
  simp [Encl]

theorem encl_reverse {l : List (TS τ ι K)} {k : ι} {f : τ → K} : Encl l.reverse k f ↔ Encl l k f := by simp [Encl]

@[simp] theorem TS.put_val (k : ι) (v : Itv K) (s : TS τ ι K) : (s.put k v).val k = v := by simp [TS.put]
@[simp] theorem TS.put_lb (k : ι) (v : Itv K) (s : TS τ ι K) : (s.put k v).lb = s.lb := rfl
@[simp] theorem TS.put_ub (k : ι) (v : Itv K) (s : TS τ ι K) : (s.put k v).ub = s.ub := rfl
theorem TS.put_other {k k' : ι} (h : k' ≠ k) (v : Itv K) (s : TS τ ι K) : (s.put k v).val k' = s.val k' := by simp [TS.put, h]
@[simp] theorem TS.put_isGate (k : ι) (v : Itv K) (s : TS τ ι K) : (s.put k v).IsGate ↔ s.IsGate := Iff.rfl

/-! ### What `setSlice` does -/

theorem setCore_mid (k : ι) (x : Itv K) (p q : List (TS τ ι K)) (s : TS τ ι K) :
    setCore k x p.length (p ++ s :: q) =
      if s.IsGate then p ++ s.put k (infOpt (infOpt x (p.getLast?.map fun r => r.val k)) (q.head?.map fun r => r.val k)) :: q
      else (capHead k x p.reverse).reverse ++ s.put k x :: capHead k x q := by
  unfold setCore
  have h1 : (p ++ s :: q).take p.length = p := by simp
  have h2 : (p ++ s :: q).drop (p.length + 1) = q := by rw [List.drop_append]; simp
  rw [getElem?_mid]
  simp only [h1, h2]

theorem capHead_length (k : ι) (x : Itv K) (l : List (TS τ ι K)) : (capHead k x l).length = l.length := by
  cases l <;> simp [capHead]

theorem capGate_bounds (k : ι) (x : Itv K) (r : TS τ ι K) : (capGate k x r).lb = r.lb ∧ (capGate k x r).ub = r.ub := by
  unfold capGate; split <;> exact ⟨rfl, rfl⟩

theorem capGate_isGate (k : ι) (x : Itv K) (r : TS τ ι K) : (capGate k x r).IsGate ↔ r.IsGate := by
  unfold capGate; split <;> exact Iff.rfl

theorem capGate_other {k k' : ι} (h : k' ≠ k) (x : Itv K) (r : TS τ ι K) : (capGate k x r).val k' = r.val k' := by
  unfold capGate; split
  · exact TS.put_other h _ _
  · rfl

/-- the list obtained by replacing the slice and capping its neighbours -/
theorem setCore_split (k : ι) (x : Itv K) (p q : List (TS τ ι K)) (s : TS τ ι K) :
    ∃ p' v q', setCore k x p.length (p ++ s :: q) = p' ++ s.put k v :: q' ∧ p'.length = p.length ∧ q'.length = q.length ∧
      p'.map (fun r => (r.lb, r.ub)) = p.map (fun r => (r.lb, r.ub)) ∧ q'.map (fun r => (r.lb, r.ub)) = q.map (fun r => (r.lb, r.ub)) ∧
      (∀ k' ≠ k, p'.map (fun r => r.val k') = p.map fun r => r.val k') ∧ (∀ k' ≠ k, q'.map (fun r => r.val k') = q.map fun r => r.val k') := by
  have hb : ∀ l : List (TS τ ι K), (capHead k x l).map (fun r => (r.lb, r.ub)) = l.map fun r => (r.lb, r.ub) := by
    intro l
    cases l with
    | nil => rfl
    | cons r l => simp [capHead, capGate_bounds]
  have ho : ∀ l : List (TS τ ι K), ∀ k' ≠ k, (capHead k x l).map (fun r => r.val k') = l.map fun r => r.val k' := by
    intro l k' hk
    cases l with
    | nil => rfl
    | cons r l => simp [capHead, capGate_other hk]
  rw [setCore_mid]
  by_cases h : s.IsGate
  · rw [if_pos h]
    exact ⟨p, _, q, rfl, rfl, rfl, rfl, rfl, fun _ _ => rfl, fun _ _ => rfl⟩
  · rw [if_neg h]
    refine ⟨_, _, _, rfl, by simp [capHead_length], capHead_length .., ?_, hb q, ?_, ho q⟩
    · rw [List.map_reverse, hb, List.map_reverse, List.reverse_reverse]
    · intro k' hk
      rw [List.map_reverse, ho _ k' hk, List.map_reverse, List.reverse_reverse]

theorem setCore_same (k : ι) (x : Itv K) (i : Nat) (l : List (TS τ ι K)) : SameOthers k l (setCore k x i l) := by
  by_cases hi : i < l.length
  · obtain ⟨p, s, q, rfl, rfl⟩ : ∃ p s q, l = p ++ s :: q ∧ i = p.length :=
      ⟨l.take i, l[i], l.drop (i + 1), by rw [List.getElem_cons_drop, List.take_append_drop], by simp [hi.le]⟩
    obtain ⟨p', v, q', e, _, _, h1, h2, h3, h4⟩ := setCore_split k x p q s
    rw [e]
    refine ⟨by simp [h1, h2], fun k' hk => ?_⟩
    simp only [List.map_append, List.map_cons, h3 k' hk, h4 k' hk, TS.put_other hk]
  · have : l[i]? = none := by rw [List.getElem?_eq_none_iff]; omega
    unfold setCore
    rw [this]
    exact ⟨rfl, fun _ _ => rfl⟩

theorem SameOthers.trans {k : ι} {l l' l'' : List (TS τ ι K)} (h : SameOthers k l l') (h' : SameOthers k l' l'') : SameOthers k l l'' :=
  ⟨h'.1.trans h.1, fun k' hk => (h'.2 k' hk).trans (h.2 k' hk)⟩

theorem sameOthers_empty (k : ι) (l : List (TS τ ι K)) : SameOthers k l (l.map (TS.put k ⊥)) := by
  refine ⟨by simp [Function.comp_def], fun k' hk => ?_⟩
  rw [List.map_map]
  exact List.map_congr_left fun s _ => TS.put_other hk ⊥ s

theorem setSlice_same (k : ι) (x : Itv K) (i : Nat) (l : List (TS τ ι K)) : SameOthers k l (setSlice k x i l) := by
  unfold setSlice
  split
  · exact (setCore_same k x i l).trans (sameOthers_empty k _)
  · exact setCore_same k x i l

theorem SameOthers.length {k : ι} {l l' : List (TS τ ι K)} (h : SameOthers k l l') : l'.length = l.length := by
  have := congrArg List.length h.1
  simpa using this

theorem SameOthers.chain {k : ι} {l l' : List (TS τ ι K)} (h : SameOthers k l l') {a b : τ} (hc : Chain a l b) : Chain a l' b := by
  have key : ∀ (l l' : List (TS τ ι K)), l'.map (fun s => (s.lb, s.ub)) = l.map (fun s => (s.lb, s.ub)) → ∀ a, Chain a l b → Chain a l' b := by
    intro l
    induction l with
    | nil =>
      intro l' e a h
      rw [List.map_nil, List.map_eq_nil_iff] at e
      rw [e]; exact h
    | cons s l ih =>
      intro l' e a h
      cases l' with
      | nil => simp at e
      | cons s' l' =>
        simp only [List.map_cons, List.cons.injEq, Prod.mk.injEq] at e
        obtain ⟨⟨e1, e2⟩, e3⟩ := e
        exact ⟨e1.trans h.1, by rw [e1, e2]; exact h.2.1, by rw [e2]; exact ih l' e3 _ h.2.2⟩
  exact key l l' h.1 a hc

/-- after replacing the slice, the same functions are enclosed as without capping the gates -/
theorem setCore_encl {k : ι} {x : Itv K} {p q : List (TS τ ι K)} {s : TS τ ι K} {a b : τ} (hc : Chain a (p ++ s :: q) b) {f : τ → K} :
    Encl (setCore k x p.length (p ++ s :: q)) k f ↔ (∀ t, s.lb ≤ t → t ≤ s.ub → f t ∈ x) ∧ Encl p k f ∧ Encl q k f := by
  obtain ⟨c, hp, hs, hle, hq⟩ := Chain.append.mp hc
  have cap : ∀ (l : List (TS τ ι K)), (∀ r ∈ l.head?, r.IsGate → s.lb ≤ r.lb ∧ r.lb ≤ s.ub) → (∀ t, s.lb ≤ t → t ≤ s.ub → f t ∈ x) →
      (Encl (capHead k x l) k f ↔ Encl l k f) := by
    intro l hl hx
    cases l with
    | nil => exact Iff.rfl
    | cons r l =>
      unfold capHead capGate
      dsimp only
      by_cases hr : r.IsGate
      · rw [if_pos hr, encl_cons, encl_cons]
        refine and_congr_left fun _ => forall_congr' fun t => ?_
        refine forall_congr' fun h1 => forall_congr' fun h2 => ?_
        rw [TS.put_val, Itv.mem_inf]
        have ht : t = r.lb := le_antisymm (h2.trans hr.ge) h1
        have := hl r rfl hr
        rw [ht]
        exact and_iff_left (hx r.lb this.1 this.2)
      · rw [if_neg hr]
  rw [setCore_mid]
  have last : ∀ r ∈ p.getLast?, r.ub = s.lb ∧ r.lb ≤ r.ub := by
    intro r hr
    refine ⟨(hp.last hr).trans hs.symm, (hp.mem (List.mem_of_getLast? hr)).2.1⟩
  have head : ∀ r ∈ q.head?, r.lb = s.ub ∧ r.lb ≤ r.ub := by
    intro r hr
    cases q with
    | nil => simp at hr
    | cons r' q =>
      simp only [List.head?_cons, Option.mem_def, Option.some.injEq] at hr
      subst hr
      exact ⟨hq.1, hq.2.1⟩
  by_cases hg : s.IsGate
  · rw [if_pos hg, encl_append, encl_cons]
    have hone : ∀ t, s.lb ≤ t → t ≤ s.ub → t = s.lb := fun t h1 h2 => le_antisymm (h2.trans hg.ge) h1
    constructor
    · rintro ⟨h1, h2, h3⟩
      refine ⟨fun t t1 t2 => ?_, h1, h3⟩
      have := h2 t t1 t2
      rw [TS.put_val] at this
      cases hpl : p.getLast? <;> cases hqh : q.head? <;> rw [hpl, hqh] at this <;> simp [infOpt] at this <;> tauto
    · rintro ⟨h1, h2, h3⟩
      refine ⟨h2, fun t t1 t2 => ?_, h3⟩
      have hx := h1 t t1 t2
      have t1 : s.lb ≤ t := t1
      have t2 : t ≤ s.ub := t2
      have et := hone t t1 t2
      rw [TS.put_val]
      have e1 : ∀ r ∈ p.getLast?, f t ∈ r.val k := fun r hr =>
        h2 r (List.mem_of_getLast? hr) t (by rw [et, ← (last r hr).1]; exact (last r hr).2) (by rw [et]; exact (last r hr).1.ge)
      have e2 : ∀ r ∈ q.head?, f t ∈ r.val k := fun r hr =>
        h3 r (List.mem_of_head? hr) t (by rw [(head r hr).1]; exact hg.ge.trans t1) (by
          rw [et, hg, ← (head r hr).1]; exact (head r hr).2)
      cases hpl : p.getLast? <;> cases hqh : q.head? <;> simp only [Option.map_none, Option.map_some, infOpt, Itv.mem_inf]
      · exact hx
      · exact ⟨hx, e2 _ hqh⟩
      · exact ⟨hx, e1 _ hpl⟩
      · exact ⟨⟨hx, e1 _ hpl⟩, e2 _ hqh⟩
  · rw [if_neg hg, encl_append, encl_cons]
    have hput : (∀ t, (s.put k x).lb ≤ t → t ≤ (s.put k x).ub → f t ∈ (s.put k x).val k) ↔ ∀ t, s.lb ≤ t → t ≤ s.ub → f t ∈ x := by
      simp only [TS.put_val, TS.put_lb, TS.put_ub]
    rw [hput, encl_reverse]
    constructor
    · rintro ⟨h1, h2, h3⟩
      rw [cap _ ?_ h2, encl_reverse] at h1
      · rw [cap _ ?_ h2] at h3
        · exact ⟨h2, h1, h3⟩
        · intro r hr _; rw [(head r hr).1]; exact ⟨hle, le_refl _⟩
      · intro r hr hrg
        rw [List.head?_reverse] at hr
        have := last r hr
        rw [hrg, this.1]; exact ⟨le_refl _, hle⟩
    · rintro ⟨h2, h1, h3⟩
      refine ⟨?_, h2, ?_⟩
      · rw [cap _ ?_ h2, encl_reverse]
        · exact h1
        · intro r hr hrg
          rw [List.head?_reverse] at hr
          have := last r hr
          rw [hrg, this.1]; exact ⟨le_refl _, hle⟩
      · rw [cap _ ?_ h2]
        · exact h3
        · intro r hr _; rw [(head r hr).1]; exact ⟨hle, le_refl _⟩

/-- a slice found empty: no function is enclosed -/
theorem not_encl_of_empty {k : ι} {l : List (TS τ ι K)} {i : Nat} {a b : τ} (hc : Chain a l b) (h : SliceEmpty k l i) (f : τ → K) : ¬ Encl l k f := by
  intro hE
  unfold SliceEmpty at h
  cases hl : l[i]? with
  | none => rw [hl] at h; exact h
  | some s =>
    rw [hl] at h
    dsimp only at h
    have hi : i < l.length := (List.getElem?_eq_some_iff.mp hl).1
    obtain ⟨p, q, rfl, rfl⟩ : ∃ p q, l = p ++ s :: q ∧ i = p.length := by
      obtain ⟨h1, h2⟩ := List.getElem?_eq_some_iff.mp hl
      exact ⟨l.take i, l.drop (i + 1), by rw [← h2, List.getElem_cons_drop, List.take_append_drop], by simp [hi.le]⟩
    obtain ⟨c, hp, hs, hle, hq⟩ := Chain.append.mp hc
    have hsE : ∀ t, s.lb ≤ t → t ≤ s.ub → f t ∈ s.val k := hE s (by simp)
    have nb : ∀ X : Itv K, ∀ t, f t ∈ X → X ≠ ⊥ := fun X t h => Itv.ne_bot_of_mem h
    by_cases hg : s.IsGate
    · rw [if_pos hg] at h
      exact nb _ _ (hsE s.lb (le_refl _) hle) h
    · rw [if_neg hg] at h
      rcases h with h | h
      · have e : (p ++ s :: q).take p.length = p := by simp
        rw [e] at h
        unfold inputGate at h
        cases hpl : p.getLast? with
        | none =>
          rw [hpl] at h
          exact nb _ _ (hsE s.lb (le_refl _) hle) h
        | some r =>
          rw [hpl] at h
          dsimp only at h
          have hub : r.ub = s.lb := (hp.last hpl).trans hs.symm
          have hm := List.mem_of_getLast? hpl
          have hrl := (hp.mem hm).2.1
          have hr : f s.lb ∈ r.val k := hE r (by simp [hm]) s.lb (by rw [← hub]; exact hrl) hub.ge
          split at h
          · exact nb _ _ hr h
          · exact nb _ _ (Itv.mem_inf.mpr ⟨hsE s.lb (le_refl _) hle, hr⟩) h
      · have e : (p ++ s :: q)[p.length + 1]? = q.head? := by
          rw [List.getElem?_append_right (by simp)]
          cases q <;> simp
        rw [e] at h
        unfold outputGate at h
        cases q with
        | nil => exact nb _ _ (hsE s.lb (le_refl _) hle) h
        | cons r q =>
          simp only [List.head?_cons] at h
          have hrlb : r.lb = s.ub := hq.1
          have hr : f s.ub ∈ r.val k := hE r (by simp) s.ub hrlb.le (by rw [← hrlb]; exact hq.2.1)
          split at h
          · exact nb _ _ hr h
          · exact nb _ _ (Itv.mem_inf.mpr ⟨hsE s.ub hle (le_refl _), hr⟩) h

theorem encl_map_bot {k : ι} {l : List (TS τ ι K)} {a b : τ} (hne : l ≠ []) (hc : Chain a l b) (f : τ → K) : ¬ Encl (l.map (TS.put k ⊥)) k f := by
  intro h
  obtain ⟨s, l, rfl⟩ := List.exists_cons_of_ne_nil hne
  have := h (s.put k ⊥) (by simp) s.lb (le_refl _) hc.2.1
  rw [TS.put_val] at this
  exact Itv.ne_bot_of_mem this rfl

/-- `Slice::set` replaces the constraint of its slice, and keeps those of the others -/
theorem setSlice_encl {k : ι} {x : Itv K} {p q : List (TS τ ι K)} {s : TS τ ι K} {a b : τ} (hc : Chain a (p ++ s :: q) b) {f : τ → K} :
    Encl (setSlice k x p.length (p ++ s :: q)) k f ↔ (∀ t, s.lb ≤ t → t ≤ s.ub → f t ∈ x) ∧ Encl p k f ∧ Encl q k f := by
  rw [← setCore_encl hc]
  unfold setSlice
  have hc' := (setCore_same k x p.length (p ++ s :: q)).chain hc
  split
  · rename_i h
    refine ⟨fun h' => absurd h' (encl_map_bot ?_ hc' f), fun h' => absurd h' (not_encl_of_empty hc' h f)⟩
    intro e
    have := (setCore_same k x p.length (p ++ s :: q)).length
    rw [e] at this
    simp at this
  · exact Iff.rfl

/-- the same, with the position -/
theorem setSlice_encl' {k : ι} {x : Itv K} {l : List (TS τ ι K)} {i : Nat} {s : TS τ ι K} (hs : l[i]? = some s) {a b : τ} (hc : Chain a l b)
    {f : τ → K} : Encl (setSlice k x i l) k f ↔ (∀ t, s.lb ≤ t → t ≤ s.ub → f t ∈ x) ∧
      ∀ j s', j ≠ i → l[j]? = some s' → ∀ t, s'.lb ≤ t → t ≤ s'.ub → f t ∈ s'.val k := by
  obtain ⟨p, q, rfl, rfl⟩ : ∃ p q, l = p ++ s :: q ∧ i = p.length := by
    obtain ⟨h1, h2⟩ := List.getElem?_eq_some_iff.mp hs
    exact ⟨l.take i, l.drop (i + 1), by rw [← h2, List.getElem_cons_drop, List.take_append_drop], by simp [h1.le]⟩
  rw [setSlice_encl hc]
  refine and_congr_right fun _ => ⟨?_, ?_⟩
  · rintro ⟨h1, h2⟩ j s' hj hs' t t1 t2
    rcases lt_or_gt_of_ne hj with h | h
    · rw [List.getElem?_append_left h] at hs'
      exact h1 s' (List.mem_of_getElem? hs') t t1 t2
    · rw [List.getElem?_append_right h.le] at hs'
      obtain ⟨m, hm⟩ : ∃ m, j - p.length = m + 1 := ⟨j - p.length - 1, by omega⟩
      rw [hm, List.getElem?_cons_succ] at hs'
      exact h2 s' (List.mem_of_getElem? hs') t t1 t2
  · intro h
    constructor
    · intro s' hs' t
      obtain ⟨j, hj⟩ := List.mem_iff_getElem?.mp hs'
      have hlt : j < p.length := (List.getElem?_eq_some_iff.mp hj).1
      exact h j s' hlt.ne (by rw [List.getElem?_append_left hlt]; exact hj) t
    · intro s' hs' t
      obtain ⟨j, hj⟩ := List.mem_iff_getElem?.mp hs'
      refine h (p.length + 1 + j) s' (by omega) ?_ t
      rw [List.getElem?_append_right (by omega), show p.length + 1 + j - p.length = j + 1 by omega, List.getElem?_cons_succ]
      exact hj

/-! ### Loops -/

theorem getElem?_bounds {k : ι} {l l' : List (TS τ ι K)} (h : SameOthers k l l') {i : Nat} {s : TS τ ι K} (hs : l[i]? = some s) :
    ∃ s', l'[i]? = some s' ∧ s'.lb = s.lb ∧ s'.ub = s.ub := by
  have := congrArg (fun m => m[i]?) h.1
  simp only [List.getElem?_map, hs, Option.map_some] at this
  obtain ⟨s', h1, h2⟩ := Option.map_eq_some_iff.mp this
  rw [Prod.mk.injEq] at h2
  exact ⟨s', h1, h2⟩

theorem getElem?_bounds' {k : ι} {l l' : List (TS τ ι K)} (h : SameOthers k l l') {i : Nat} {s' : TS τ ι K} (hs : l'[i]? = some s') :
    ∃ s, l[i]? = some s ∧ s'.lb = s.lb ∧ s'.ub = s.ub := by
  have := congrArg (fun m => m[i]?) h.1
  simp only [List.getElem?_map, hs, Option.map_some] at this
  obtain ⟨s, h1, h2⟩ := Option.map_eq_some_iff.mp this.symm
  rw [Prod.mk.injEq] at h2
  exact ⟨s, h1, h2.1.symm, h2.2.symm⟩

theorem capGate_le (k : ι) (x : Itv K) (r : TS τ ι K) : (capGate k x r).val k ≤ r.val k := by
  unfold capGate; split
  · rw [TS.put_val]; exact inf_le_left
  · exact le_refl _

theorem capHead_le (k : ι) (x : Itv K) (l : List (TS τ ι K)) (j : Nat) {s' : TS τ ι K} (h : (capHead k x l)[j]? = some s') :
    ∃ s, l[j]? = some s ∧ s'.val k ≤ s.val k ∧ (¬ s.IsGate → s' = s) := by
  cases l with
  | nil => simp [capHead] at h
  | cons r l =>
    cases j with
    | zero =>
      simp only [capHead, List.getElem?_cons_zero, Option.some.injEq] at h
      exact ⟨r, rfl, by rw [← h]; exact capGate_le k x r, fun hg => by rw [← h, capGate, if_neg hg]⟩
    | succ j =>
      simp only [capHead, List.getElem?_cons_succ] at h
      exact ⟨s', h, le_refl _, fun _ => rfl⟩

theorem capHead_rev_le (k : ι) (x : Itv K) (l : List (TS τ ι K)) (j : Nat) {s' : TS τ ι K} (h : (capHead k x l.reverse).reverse[j]? = some s') :
    ∃ s, l[j]? = some s ∧ s'.val k ≤ s.val k ∧ (¬ s.IsGate → s' = s) := by
  have hj : j < l.length := by
    have := (List.getElem?_eq_some_iff.mp h).1
    simpa [capHead_length] using this
  rw [List.getElem?_reverse (by simpa [capHead_length] using hj)] at h
  obtain ⟨s, h1, h2⟩ := capHead_le k x _ _ h
  refine ⟨s, ?_, h2⟩
  rw [capHead_length, List.length_reverse, List.getElem?_reverse (by omega)] at h1
  rw [← h1]
  congr 1
  omega

/-- the values after `setCore`: not larger than `x` on the slice, not larger than before elsewhere -/
theorem setCore_le (k : ι) (x : Itv K) {i j : Nat} {l : List (TS τ ι K)} {s s' : TS τ ι K} (hs : l[j]? = some s)
    (hs' : (setCore k x i l)[j]? = some s') : if j = i then s'.val k ≤ x else s'.val k ≤ s.val k := by
  by_cases hi : i < l.length
  · obtain ⟨p, r, q, rfl, rfl⟩ : ∃ p s q, l = p ++ s :: q ∧ i = p.length :=
      ⟨l.take i, l[i], l.drop (i + 1), by rw [List.getElem_cons_drop, List.take_append_drop], by simp [hi.le]⟩
    rw [setCore_mid] at hs'
    have hlen : (capHead k x p.reverse).reverse.length = p.length := by simp [capHead_length]
    have infOpt_le : ∀ (X : Itv K) (Y : Option (Itv K)), infOpt X Y ≤ X := by
      intro X Y; cases Y
      · exact le_refl _
      · exact inf_le_left
    rcases lt_trichotomy j p.length with h | rfl | h
    · rw [if_neg h.ne]
      rw [List.getElem?_append_left h] at hs
      split at hs'
      · rw [List.getElem?_append_left h, hs, Option.some.injEq] at hs'
        rw [hs']
      · rw [List.getElem?_append_left (by rw [hlen]; exact h)] at hs'
        obtain ⟨s1, h1, h2, _⟩ := capHead_rev_le k x p j hs'
        rw [hs, Option.some.injEq] at h1
        rw [h1]; exact h2
    · rw [if_pos rfl]
      split at hs'
      · rw [getElem?_mid, Option.some.injEq] at hs'
        rw [← hs', TS.put_val]
        exact (infOpt_le _ _).trans (infOpt_le _ _)
      · rw [← hlen, getElem?_mid, Option.some.injEq] at hs'
        rw [← hs', TS.put_val]
    · rw [if_neg h.ne']
      rw [List.getElem?_append_right h.le] at hs
      obtain ⟨m, hm⟩ : ∃ m, j - p.length = m + 1 := ⟨j - p.length - 1, by omega⟩
      rw [hm, List.getElem?_cons_succ] at hs
      split at hs'
      · rw [List.getElem?_append_right h.le, hm, List.getElem?_cons_succ, hs, Option.some.injEq] at hs'
        rw [hs']
      · rw [List.getElem?_append_right (by rw [hlen]; exact h.le), hlen, hm, List.getElem?_cons_succ] at hs'
        obtain ⟨s1, h1, h2, _⟩ := capHead_le k x q m hs'
        rw [hs, Option.some.injEq] at h1
        rw [h1]; exact h2
  · have hn : l[i]? = none := by rw [List.getElem?_eq_none_iff]; omega
    unfold setCore at hs'
    rw [hn] at hs'
    dsimp only at hs'
    have hj : j < l.length := (List.getElem?_eq_some_iff.mp hs).1
    rw [if_neg (by omega)]
    rw [hs, Option.some.injEq] at hs'
    rw [hs']

theorem setSlice_le (k : ι) (x : Itv K) {i j : Nat} {l : List (TS τ ι K)} {s s' : TS τ ι K} (hs : l[j]? = some s)
    (hs' : (setSlice k x i l)[j]? = some s') : if j = i then s'.val k ≤ x else s'.val k ≤ s.val k := by
  unfold setSlice at hs'
  split at hs'
  · rw [List.getElem?_map] at hs'
    obtain ⟨s1, h1, h2⟩ := Option.map_eq_some_iff.mp hs'
    rw [← h2, TS.put_val]
    split <;> exact bot_le
  · exact setCore_le k x hs hs'

theorem foldl_set_same {k : ι} {y : Nat → List (TS τ ι K) → Itv K} (idx : List Nat) :
    ∀ (l : List (TS τ ι K)), SameOthers k l (idx.foldl (fun l i => setSlice k (y i l) i l) l) := by
  induction idx with
  | nil => exact fun l => ⟨rfl, fun _ _ => rfl⟩
  | cons i idx ih => exact fun l => (setSlice_same k (y i l) i l).trans (ih _)

/-- setting `y i` on the slices of `idx`, one after the other: the values of the result are not larger than `y i` on these slices, nor than
before on the other ones -/
theorem foldl_set_le {k : ι} {y : Nat → Itv K} (idx : List Nat) (hnd : idx.Nodup) :
    ∀ (l : List (TS τ ι K)) (j : Nat) (s s' : TS τ ι K), l[j]? = some s →
      (idx.foldl (fun l i => setSlice k (y i) i l) l)[j]? = some s' → if j ∈ idx then s'.val k ≤ y j else s'.val k ≤ s.val k := by
  induction idx with
  | nil =>
    intro l j s s' hs hs'
    rw [List.foldl_nil, hs, Option.some.injEq] at hs'
    rw [if_neg (by simp), hs']
  | cons i idx ih =>
    intro l j s s' hs hs'
    obtain ⟨hni, hnd'⟩ := List.nodup_cons.mp hnd
    rw [List.foldl_cons] at hs'
    obtain ⟨s1, e1, _, _⟩ := getElem?_bounds (setSlice_same k (y i) i l) hs
    have h1 := setSlice_le k (y i) hs e1
    have h2 := ih hnd' _ j s1 s' e1 hs'
    by_cases hji : j = i
    · subst hji
      rw [if_pos rfl] at h1
      rw [if_neg hni] at h2
      rw [if_pos (by simp)]
      exact h2.trans h1
    · rw [if_neg hji] at h1
      by_cases hj : j ∈ idx
      · rw [if_pos hj] at h2
        rw [if_pos (by simp [hj])]
        exact h2
      · rw [if_neg hj] at h2
        rw [if_neg (by simp [hj, hji])]
        exact h2.trans h1

/-- setting, on the slices of `idx`, values that `f` respects, keeps `f` -/
theorem foldl_set_keep {k : ι} {y : Nat → List (TS τ ι K) → Itv K} {a b : τ} {f : τ → K} (idx : List Nat) :
    ∀ (l : List (TS τ ι K)), Chain a l b → Encl l k f →
      (∀ i ∈ idx, ∀ l', SameOthers k l l' → Encl l' k f → ∀ s, l[i]? = some s → ∀ t, s.lb ≤ t → t ≤ s.ub → f t ∈ y i l') →
      Encl (idx.foldl (fun l i => setSlice k (y i l) i l) l) k f := by
  induction idx with
  | nil => exact fun l _ h _ => h
  | cons i idx ih =>
    intro l hc hE hy
    rw [List.foldl_cons]
    have hsame := setSlice_same k (y i l) i l
    refine ih _ (hsame.chain hc) ?_ ?_
    · by_cases hi : i < l.length
      · have hs : l[i]? = some l[i] := List.getElem?_eq_getElem hi
        rw [setSlice_encl' hs hc]
        exact ⟨fun t => hy i (by simp) l ⟨rfl, fun _ _ => rfl⟩ hE _ hs t, fun j s' _ hs' t => hE s' (List.mem_of_getElem? hs') t⟩
      · have hn : l[i]? = none := by rw [List.getElem?_eq_none_iff]; omega
        have e : setCore k (y i l) i l = l := by unfold setCore; rw [hn]
        unfold setSlice
        rw [e, if_neg]
        · exact hE
        · unfold SliceEmpty; rw [hn]; exact id
    · intro j hj l' hl' hE' s hs t t1 t2
      obtain ⟨s0, e0, e1, e2⟩ := getElem?_bounds' hsame hs
      exact hy j (List.mem_cons_of_mem _ hj) l' (hsame.trans hl') hE' s0 e0 t (e1.ge.trans t1) (t2.trans e2.le)

/-- `Tube::operator&=`: the functions of both tubes -/
theorem interTube_encl {k : ι} {ys : List (Itv K)} {l : List (TS τ ι K)} {a b : τ} (hc : Chain a l b) (hy : ys.length = l.length) {f : τ → K} :
    Encl (interTube k ys l) k f ↔ Encl l k f ∧ ∀ (i : Nat) (s : TS τ ι K) (y : Itv K), l[i]? = some s → ys[i]? = some y → ∀ t, s.lb ≤ t → t ≤ s.ub → f t ∈ y := by
  have hgetD : ∀ i s, l[i]? = some s → ∃ y, ys[i]? = some y ∧ ys.getD i ⊤ = y := by
    intro i s hs
    have hi : i < ys.length := by rw [hy]; exact (List.getElem?_eq_some_iff.mp hs).1
    exact ⟨ys[i], List.getElem?_eq_getElem hi, by rw [List.getD_eq_getElem?_getD, List.getElem?_eq_getElem hi]; rfl⟩
  constructor
  · intro h
    -- the values of the result are not larger than both
    have key : ∀ (idx : List Nat) (l : List (TS τ ι K)) (j : Nat) (s s' : TS τ ι K), l[j]? = some s →
        (idx.foldl (fun l i => setSlice k (((l[i]?.map fun s => s.val k).getD ⊤) ⊓ ys.getD i ⊤) i l) l)[j]? = some s' →
        s'.val k ≤ s.val k ∧ (j ∈ idx → s'.val k ≤ ys.getD j ⊤) := by
      intro idx
      induction idx with
      | nil =>
        intro l j s s' hs hs'
        rw [List.foldl_nil, hs, Option.some.injEq] at hs'
        exact ⟨by rw [hs'], by simp⟩
      | cons i idx ih =>
        intro l j s s' hs hs'
        rw [List.foldl_cons] at hs'
        obtain ⟨s1, e1, _, _⟩ := getElem?_bounds (setSlice_same k (((l[i]?.map fun s => s.val k).getD ⊤) ⊓ ys.getD i ⊤) i l) hs
        have h1 := setSlice_le k _ hs e1
        obtain ⟨h2, h3⟩ := ih _ j s1 s' e1 hs'
        by_cases hji : j = i
        · subst hji
          rw [if_pos rfl, hs] at h1
          exact ⟨h2.trans (h1.trans inf_le_left), fun _ => h2.trans (h1.trans inf_le_right)⟩
        · rw [if_neg hji] at h1
          exact ⟨h2.trans h1, fun hj => h3 ((List.mem_cons.mp hj).resolve_left hji)⟩
    have hsame : SameOthers k l (interTube k ys l) := foldl_set_same _ l
    constructor
    · intro s hs t t1 t2
      obtain ⟨i, hi⟩ := List.mem_iff_getElem?.mp hs
      obtain ⟨s', e1, e2, e3⟩ := getElem?_bounds hsame hi
      exact Itv.mem_of_le (key _ l i s s' hi e1).1 (h s' (List.mem_of_getElem? e1) t (e2.le.trans t1) (t2.trans e3.ge))
    · intro i s y hi hyi t t1 t2
      obtain ⟨s', e1, e2, e3⟩ := getElem?_bounds hsame hi
      have hlt : i < l.length := (List.getElem?_eq_some_iff.mp hi).1
      have := (key _ l i s s' hi e1).2 (List.mem_range.mpr hlt)
      obtain ⟨y', h1, h2⟩ := hgetD i s hi
      rw [hyi, Option.some.injEq] at h1
      rw [h2, ← h1] at this
      exact Itv.mem_of_le this (h s' (List.mem_of_getElem? e1) t (e2.le.trans t1) (t2.trans e3.ge))
  · rintro ⟨h1, h2⟩
    refine foldl_set_keep _ l hc h1 ?_
    intro i hi l' hl' hE s hs t t1 t2
    obtain ⟨s', e1, e2, e3⟩ := getElem?_bounds hl' hs
    obtain ⟨y, e4, e5⟩ := hgetD i s hs
    rw [e1, e5, Itv.mem_inf]
    exact ⟨hE s' (List.mem_of_getElem? e1) t (e2.le.trans t1) (t2.trans e3.ge), h2 i s y hs e4 t t1 t2⟩

/-- `Tube::operator=`: the result is included in the assigned tube, and it is this tube for the functions that the tube enclosed before -/
theorem assignTube_encl {k : ι} {ys : List (Itv K)} {l : List (TS τ ι K)} {a b : τ} (hc : Chain a l b) (hy : ys.length = l.length) {f : τ → K} :
    (Encl (assignTube k ys l) k f →
      ∀ (i : Nat) (s : TS τ ι K) (y : Itv K), l[i]? = some s → ys[i]? = some y → ∀ t, s.lb ≤ t → t ≤ s.ub → f t ∈ y) ∧
    (Encl l k f → (∀ (i : Nat) (s : TS τ ι K) (y : Itv K), l[i]? = some s → ys[i]? = some y → ∀ t, s.lb ≤ t → t ≤ s.ub → f t ∈ y) →
      Encl (assignTube k ys l) k f) := by
  have hgetD : ∀ i s, l[i]? = some s → ∃ y, ys[i]? = some y ∧ ys.getD i ⊤ = y := by
    intro i s hs
    have hi : i < ys.length := by rw [hy]; exact (List.getElem?_eq_some_iff.mp hs).1
    exact ⟨ys[i], List.getElem?_eq_getElem hi, by rw [List.getD_eq_getElem?_getD, List.getElem?_eq_getElem hi]; rfl⟩
  constructor
  · intro h i s y hi hyi t t1 t2
    have hsame : SameOthers k l (assignTube k ys l) := foldl_set_same _ l
    obtain ⟨s', e1, e2, e3⟩ := getElem?_bounds hsame hi
    have hlt : i < l.length := (List.getElem?_eq_some_iff.mp hi).1
    have := foldl_set_le (k := k) (y := fun i => ys.getD i ⊤) _ List.nodup_range l i s s' hi e1
    rw [if_pos (List.mem_range.mpr hlt)] at this
    obtain ⟨y', h1, h2⟩ := hgetD i s hi
    rw [hyi, Option.some.injEq] at h1
    rw [h2, ← h1] at this
    exact Itv.mem_of_le this (h s' (List.mem_of_getElem? e1) t (e2.le.trans t1) (t2.trans e3.ge))
  · intro h1 h2
    refine foldl_set_keep (y := fun i _ => ys.getD i ⊤) _ l hc h1 ?_
    intro i hi l' hl' hE s hs t t1 t2
    obtain ⟨y, e4, e5⟩ := hgetD i s hs
    rw [e5]
    exact h2 i s y hs e4 t t1 t2

/-! ### Evaluation on an interval -/

/-- the slices used by the loop: those among the first `n` that do not start at `b` -/
theorem evalLoop_le {k : ι} {b : τ} : ∀ (n : Nat) (l : List (TS τ ι K)) (acc Y : Itv K) (a c : τ), Chain a l c → (∀ s ∈ l.take n, s.lb ≤ b) →
    (evalLoop k b n l acc ≤ Y ↔ acc ≤ Y ∧ ∀ s ∈ l.take n, s.lb ≠ b → s.val k ≤ Y)
  | 0, l, acc, Y, a, c, _, _ => by cases l <;> simp [evalLoop]
  | n + 1, [], acc, Y, a, c, _, _ => by simp [evalLoop]
  | n + 1, s :: l, acc, Y, a, c, hc, hb => by
    rw [evalLoop]
    rw [List.take_succ_cons] at hb ⊢
    by_cases h : s.lb = b
    · rw [if_pos h]
      refine ⟨fun h1 => ⟨h1, fun r hr hrb => ?_⟩, fun h1 => h1.1⟩
      rcases List.mem_cons.mp hr with rfl | hr'
      · exact absurd h hrb
      · have h2 := (hc.2.2.mem (List.mem_of_mem_take hr')).1
        exact absurd (le_antisymm (hb r hr) (h.ge.trans (hc.2.1.trans h2))) hrb
    · rw [if_neg h, evalLoop_le n l _ Y _ _ hc.2.2 (fun r hr => hb r (List.mem_cons_of_mem _ hr)), sup_le_iff]
      constructor
      · rintro ⟨⟨h1, h2⟩, h3⟩
        refine ⟨h1, fun r hr hrb => ?_⟩
        rcases List.mem_cons.mp hr with rfl | hr
        · exact h2
        · exact h3 r hr hrb
      · rintro ⟨h1, h2⟩
        exact ⟨⟨h1, h2 s List.mem_cons_self h⟩, fun r hr => h2 r (List.mem_cons_of_mem _ hr)⟩

/-- `eval([a,b])` is the hull of the values of the slices and gates that the interval crosses -/
theorem evalItv_le {t0 tf a b : τ} {l : List (TS τ ι K)} (h : WF t0 tf l) (ha : t0 ≤ a) (hb : b ≤ tf) (hab : a < b) (k : ι) (Y : Itv K) :
    evalItv k a b l ≤ Y ↔ ∀ s ∈ l, s.lb < b → (a < s.ub ∨ (s.IsGate ∧ s.lb = a)) → s.val k ≤ Y := by
  obtain ⟨hne, hc, hg⟩ := h
  obtain ⟨p, s, q, e1, e2, e3, e4, e5, e6⟩ := iter_spec hne hc ha (hab.le.trans hb)
  obtain ⟨p', s', q', f1, f2, f3, f4, f5, f6⟩ := iter_spec hne hc (ha.trans hab.le) hb
  have hsa : s.hit a := by
    rcases e6 with h | ⟨rfl, _, h2⟩
    · exact h
    · have : s.ub = tf := hc.last (by rw [e1]; simp)
      rw [← h2] at this
      exact absurd (hab.trans_le hb) (by rw [this]; exact lt_irrefl _)
  have hse : s.lb < b := e3.trans_lt hab
  -- the positions
  have hpos : p.length ≤ p'.length := by
    by_contra hlt
    rw [not_le] at hlt
    -- s' is before s
    have h1 : l[p'.length]? = some s' := by rw [f1]; exact getElem?_mid _ _ _
    rw [e1, List.getElem?_append_left hlt] at h1
    have h2 := (around (e1 ▸ hc)).1 s' (List.mem_of_getElem? h1)
    exact absurd (hab.trans_le (f4.trans (h2.trans e3))) (lt_irrefl _)
  obtain ⟨f0, l0, rfl⟩ := List.exists_cons_of_ne_nil hne
  obtain ⟨e, he⟩ : ∃ e, (f0 :: l0).getLast? = some e := ⟨_, List.getLast?_eq_some_getLast (by simp)⟩
  have hev : evalItv k a b (f0 :: l0) =
      evalLoop k b (iter b (f0 :: l0) + 1 - iter a (f0 :: l0)) ((f0 :: l0).drop (iter a (f0 :: l0))) (s.val k) := by
    unfold evalItv
    rw [List.head?_cons, he]
    dsimp only
    rw [if_pos ⟨by rw [hc.head]; exact ha, by rw [hc.last he]; exact hb⟩, if_neg hab.ne]
    congr 1
    rw [e2, e1, getElem?_mid]
    rfl
  rw [hev, e2, f2]
  have hdrop : (f0 :: l0).drop p.length = s :: q := by rw [e1]; simp
  obtain ⟨c, _, hc2⟩ := Chain.append.mp (e1 ▸ hc)
  -- the slices among the first ones
  have hmem : ∀ r, r ∈ (s :: q).take (p'.length + 1 - p.length) ↔ ∃ j, p.length ≤ j ∧ j ≤ p'.length ∧ (f0 :: l0)[j]? = some r := by
    intro r
    rw [List.mem_iff_getElem?]
    constructor
    · rintro ⟨j, hj⟩
      rw [List.getElem?_take] at hj
      split at hj
      · refine ⟨p.length + j, by omega, by omega, ?_⟩
        rw [e1, List.getElem?_append_right (by omega)]
        simpa using hj
      · exact absurd hj (by simp)
    · rintro ⟨j, h1, h2, h3⟩
      refine ⟨j - p.length, ?_⟩
      rw [List.getElem?_take, if_pos (by omega)]
      rw [e1, List.getElem?_append_right h1] at h3
      exact h3
  rw [hdrop, evalLoop_le _ _ _ _ _ _ hc2]
  · constructor
    · rintro ⟨h1, h2⟩ r hr hrb hra
      refine h2 r ((hmem r).mpr ?_) hrb.ne
      obtain ⟨j, hj⟩ := List.mem_iff_getElem?.mp hr
      refine ⟨j, ?_, ?_, hj⟩
      · by_contra hlt
        rw [not_le] at hlt
        rw [e1, List.getElem?_append_left hlt] at hj
        have hrp := List.mem_of_getElem? hj
        rcases hra with hra | hra
        · exact absurd (hra.trans_le (((around (e1 ▸ hc)).1 r hrp).trans e3)) (lt_irrefl _)
        · exact e5 r hrp (.inl hra)
      · by_contra hlt
        rw [not_le] at hlt
        rw [f1, List.getElem?_append_right hlt.le] at hj
        obtain ⟨m, hm⟩ : ∃ m, j - p'.length = m + 1 := ⟨j - p'.length - 1, by omega⟩
        rw [hm, List.getElem?_cons_succ] at hj
        have := (around (f1 ▸ hc)).2 r (List.mem_of_getElem? hj)
        exact absurd (hrb.trans_le (f4.trans this)) (lt_irrefl _)
    · intro h1
      refine ⟨h1 s (by rw [e1]; simp) hse ?_, fun r hr hrb => ?_⟩
      · exact hsa.elim .inr fun h => .inl h.2
      · obtain ⟨j, j1, j2, j3⟩ := (hmem r).mp hr
        have hr' := List.mem_of_getElem? j3
        refine h1 r hr' ?_ ?_
        · refine lt_of_le_of_ne ?_ hrb
          rcases lt_or_eq_of_le j2 with h | h
          · rw [f1, List.getElem?_append_left h] at j3
            have h2 := (around (f1 ▸ hc)).1 r (List.mem_of_getElem? j3)
            exact ((hc.mem hr').2.1.trans h2).trans f3
          · rw [h, f1, getElem?_mid, Option.some.injEq] at j3
            rw [← j3]; exact f3
        · rcases lt_or_eq_of_le j1 with h | h
          · rw [e1, List.getElem?_append_right h.le] at j3
            obtain ⟨m, hm⟩ : ∃ m, j - p.length = m + 1 := ⟨j - p.length - 1, by omega⟩
            rw [hm, List.getElem?_cons_succ] at j3
            have h2 := (around (e1 ▸ hc)).2 r (List.mem_of_getElem? j3)
            have h3 : a ≤ r.lb := e4.trans h2
            have h4 := (hc.mem hr').2.1
            rcases lt_or_eq_of_le (h3.trans h4) with h5 | h5
            · exact .inl h5
            · refine .inr ⟨le_antisymm h4 (h5.ge.trans h3), le_antisymm (h4.trans h5.ge) h3⟩
          · rw [← h, e1, getElem?_mid, Option.some.injEq] at j3
            rw [← j3]
            exact hsa.elim .inr fun h => .inl h.2
  · intro r hr
    obtain ⟨j, j1, j2, j3⟩ := (hmem r).mp hr
    have hr' := List.mem_of_getElem? j3
    rcases lt_or_eq_of_le j2 with h | h
    · rw [f1, List.getElem?_append_left h] at j3
      have h2 := (around (f1 ▸ hc)).1 r (List.mem_of_getElem? j3)
      exact ((hc.mem hr').2.1.trans h2).trans f3
    · rw [h, f1, getElem?_mid, Option.some.injEq] at j3
      rw [← j3]; exact f3

/-- `eval([a,b])` encloses the values of the enclosed functions -/
theorem evalItv_encl {t0 tf a b : τ} {l : List (TS τ ι K)} (h : WF t0 tf l) (ha : t0 ≤ a) (hb : b ≤ tf) (hab : a < b) {k : ι} {f : τ → K}
    (hf : Encl l k f) {t : τ} (h1 : a ≤ t) (h2 : t ≤ b) : f t ∈ evalItv k a b l := by
  have key := (evalItv_le h ha hb hab k (evalItv k a b l)).mp (le_refl _)
  obtain ⟨hne, hc, hg⟩ := h
  rcases lt_or_eq_of_le h2 with h2 | rfl
  · obtain ⟨p, s, q, e1, e2, e3, e4, e5, e6⟩ := iter_spec hne hc (ha.trans h1) (h2.le.trans hb)
    have hs : s ∈ l := by rw [e1]; simp
    refine Itv.mem_of_le (key s hs (e3.trans_lt h2) ?_) (hf s hs t e3 e4)
    rcases e6 with (⟨g1, g2⟩ | ⟨g1, g2⟩) | ⟨_, g1, g2⟩
    · rcases lt_or_eq_of_le h1 with h | rfl
      · exact .inl (h.trans_le e4)
      · exact .inr ⟨g1, g2⟩
    · exact .inl (h1.trans_lt g2)
    · have : s.ub = tf := hc.last (by rw [e1, ‹q = []›]; simp)
      rw [← g2] at this
      exact absurd (h2.trans_le hb) (by rw [this]; exact lt_irrefl _)
  · -- a slice ending at `t`, starting before
    obtain ⟨s, hs, s1, s2⟩ : ∃ s ∈ l, s.lb < t ∧ t ≤ s.ub := by
      have : ∀ (l : List (TS τ ι K)) (c : τ), c < t → t ≤ tf → Chain c l tf → ∃ s ∈ l, s.lb < t ∧ t ≤ s.ub := by
        intro l
        induction l with
        | nil => intro c c1 c2 c3; exact absurd (c1.trans_le c2) (by have c3 : c = tf := c3; rw [c3]; exact lt_irrefl _)
        | cons s l ih =>
          intro c c1 c2 c3
          by_cases hh : t ≤ s.ub
          · exact ⟨s, List.mem_cons_self, by rw [c3.1]; exact c1, hh⟩
          · obtain ⟨r, r1, r2⟩ := ih s.ub (not_le.mp hh) c2 c3.2.2
            exact ⟨r, List.mem_cons_of_mem _ r1, r2⟩
      exact this l t0 (ha.trans_lt hab) hb hc
    exact Itv.mem_of_le (key s hs s1 (.inl (hab.trans_le s2))) (hf s hs t s1.le s2)

end Codac.C2
