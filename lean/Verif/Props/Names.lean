import Verif.CN.Names
import Mathlib.Data.List.Basic

/-!
# C129: the names of the domains in the exported graph of a network
-/

namespace Codac.Props
open Codac Codac.Names

/-- a name given with `set_name`, that has no question mark -/
def GivenName (d : Dom) (s : List Char) : Prop := d.name = s ∧ s ≠ [] ∧ '?' ∉ s

/-- the domain `i` is contained in the domain `j`, at the place number `c` from 1 (its component if `slc` is false, its slice otherwise) -/
def PartOf (N : List Dom) (i j : Nat) (slc : Bool) (c : Nat) : Prop :=
  ∃ d x, N[i]? = some d ∧ N[j]? = some x ∧ j ≠ i ∧ 0 < c ∧
    ((slc = false ∧ ∃ p ps, d.kind = .itv p ∧ x.kind = .vec ps ∧ ps[c - 1]? = some p ∧ ∀ m < c - 1, ps[m]? ≠ some p) ∨
     (slc = true ∧ ∃ p ps, d.kind = .slice p ∧ x.kind = .tube ps ∧ ps[c - 1]? = some p ∧ ∀ m < c - 1, ps[m]? ≠ some p))

/-- the label a domain has by itself or by what contains it: its name, or the name of the last domain of the map that contains it followed by the number of the component or slice -/
inductive Label (N : List Dom) (i : Nat) : List Char → Prop
  | own {d : Dom} {s : List Char} : N[i]? = some d → GivenName d s → Label N i s
  | comp {d x : Dom} {j c : Nat} {s : List Char} : N[i]? = some d → d.name = [] → N[j]? = some x → PartOf N i j false c → (∀ k > j, ∀ b c', ¬ PartOf N i k b c') →
      GivenName x s → Label N i (s ++ num c)
  | slice {d x : Dom} {j c : Nat} {s : List Char} : N[i]? = some d → d.name = [] → N[j]? = some x → PartOf N i j true c → (∀ k > j, ∀ b c', ¬ PartOf N i k b c') →
      GivenName x s → Label N i (s ++ "^{(".toList ++ num c ++ ")}".toList)

def HasLabel (N : List Dom) (i : Nat) : Prop := ∃ s, Label N i s

theorem idxOf_spec {p : Nat} : ∀ {ps : List Nat}, p ∈ ps → ps[ps.idxOf p]? = some p ∧ ∀ m < ps.idxOf p, ps[m]? ≠ some p
  | [], h => by simp at h
  | q :: ps, h => by
    by_cases hq : q = p
    · subst hq; simp
    · have h' : p ∈ ps := by simpa [Ne.symm hq] using h
      have ih := idxOf_spec h'
      rw [List.idxOf_cons_ne _ hq]
      refine ⟨by simpa using ih.1, fun m hm => ?_⟩
      cases m with
      | zero => simpa using hq
      | succ m => simpa using ih.2 m (by omega)

theorem idxOf_unique {p c : Nat} {ps : List Nat} (h1 : ps[c]? = some p) (h2 : ∀ m < c, ps[m]? ≠ some p) : p ∈ ps ∧ ps.idxOf p = c := by
  have hm := List.mem_of_getElem? h1
  have := idxOf_spec hm
  refine ⟨hm, ?_⟩
  rcases lt_trichotomy (ps.idxOf p) c with h | h | h
  · exact absurd this.1 (h2 _ h)
  · exact h
  · exact absurd h1 (this.2 _ h)

/-- what `suffix` says -/
theorem suffix_iff {N : List Dom} {i j : Nat} {d x : Dom} (hd : N[i]? = some d) (hx : N[j]? = some x) (hji : j ≠ i) (s : List Char) :
    suffix d x = some s ↔ (∃ c, PartOf N i j false c ∧ s = num c) ∨ ∃ c, PartOf N i j true c ∧ s = "^{(".toList ++ num c ++ ")}".toList := by
  constructor
  · intro h
    cases hdk : d.kind <;> cases hxk : x.kind <;> simp [suffix, compOf, sliceOf, hdk, hxk] at h
    case itv.vec p ps =>
      by_cases hp : p ∈ ps
      · simp only [hp, if_true] at h
        obtain ⟨a, b⟩ := idxOf_spec hp
        left
        exact ⟨ps.idxOf p + 1, ⟨d, x, hd, hx, hji, by omega, .inl ⟨rfl, p, ps, hdk, hxk, a, b⟩⟩, by simpa using h.symm⟩
      · simp [hp] at h
    case slice.tube p ps =>
      by_cases hp : p ∈ ps
      · simp only [hp, if_true] at h
        obtain ⟨a, b⟩ := idxOf_spec hp
        right
        exact ⟨ps.idxOf p + 1, ⟨d, x, hd, hx, hji, by omega, .inr ⟨rfl, p, ps, hdk, hxk, a, b⟩⟩, by simpa using h.symm⟩
      · simp [hp] at h
  · rintro (⟨c, ⟨d', x', e1, e2, -, hc, h⟩, rfl⟩ | ⟨c, ⟨d', x', e1, e2, -, hc, h⟩, rfl⟩)
    · rw [hd] at e1; cases e1
      rw [hx] at e2; cases e2
      rcases h with ⟨-, p, ps, h1, h2, h3, h4⟩ | ⟨h, -⟩
      · obtain ⟨a, b⟩ := idxOf_unique h3 h4
        simp only [suffix, compOf, h1, h2, a, if_true, b]
        rw [Nat.sub_add_cancel hc]
      · cases h
    · rw [hd] at e1; cases e1
      rw [hx] at e2; cases e2
      rcases h with ⟨h, -⟩ | ⟨-, p, ps, h1, h2, h3, h4⟩
      · cases h
      · obtain ⟨a, b⟩ := idxOf_unique h3 h4
        simp only [suffix, compOf, sliceOf, h1, h2, a, if_true, b]
        rw [Nat.sub_add_cancel hc]

theorem partOf_suffix {N : List Dom} {i j : Nat} {b : Bool} {c : Nat} (h : PartOf N i j b c) : ∃ d x s, N[i]? = some d ∧ N[j]? = some x ∧ j ≠ i ∧ suffix d x = some s := by
  have h' := h
  obtain ⟨d, x, hd, hx, hji, -⟩ := h
  cases b with
  | false => exact ⟨d, x, _, hd, hx, hji, (suffix_iff hd hx hji _).2 (.inl ⟨c, h', rfl⟩)⟩
  | true => exact ⟨d, x, _, hd, hx, hji, (suffix_iff hd hx hji _).2 (.inr ⟨c, h', rfl⟩)⟩

/-- the last domain that contains `i`, cut at its place in the map -/
theorem range_split {n j : Nat} {a b : List Nat} (h : List.range n = a ++ j :: b) : ∀ k, k > j → k < n → k ∈ b := by
  intro k hk hn
  have hj : a = List.range j ∧ a.length = j := by
    have h1 : (List.range n)[a.length]? = some j := by rw [h]; simp
    have h2 := List.getElem?_eq_some_iff.1 h1
    have h3 : a.length = j := by have := h2.2; simpa using this
    have h4 : a = (List.range n).take a.length := by rw [h]; simp
    rw [h3, List.take_range] at h4
    have h5 : j < n := by have := h2.1; simp at this; omega
    rw [Nat.min_eq_left (Nat.le_of_lt h5)] at h4
    exact ⟨h4, h3⟩
  have : k ∈ a ++ j :: b := by rw [← h]; simpa using hn
  rcases List.mem_append.1 this with h' | h'
  · rw [hj.1] at h'; simp at h'; omega
  · rcases List.mem_cons.1 h' with h' | h'
    · omega
    · exact h'

theorem vecName_given {N : List Dom} {j : Nat} {x : Dom} (hx : N[j]? = some x) : ('?' ∉ vecName N j ↔ ∃ s, GivenName x s) ∧ ∀ s, GivenName x s → vecName N j = s := by
  have key : ∀ s, GivenName x s → vecName N j = s := by
    rintro s ⟨rfl, h2, h3⟩
    simp only [vecName, hx]
    rw [if_neg]
    rintro (h | h)
    · exact h2 h
    · exact h3 h
  refine ⟨⟨fun h => ?_, fun ⟨s, hs⟩ => by rw [key s hs]; exact hs.2.2⟩, key⟩
  simp only [vecName, hx] at h
  by_cases hb : Bad x.name
  · simp [hb] at h
  · exact ⟨x.name, rfl, fun e => hb (.inl e), fun e => hb (.inr e)⟩

/-- the model's own name, and the labels of the specification -/
theorem label_iff {N : List Dom} {i : Nat} (s : List Char) : Label N i s ↔ ¬ Bad (ownName N i) ∧ ownName N i = s := by
  constructor
  · have part : ∀ {d x : Dom} {j : Nat} {u s : List Char}, N[i]? = some d → d.name = [] → N[j]? = some x → j ≠ i → suffix d x = some u → (∀ k > j, ∀ b c', ¬ PartOf N i k b c') →
        GivenName x s → ¬ Bad (ownName N i) ∧ ownName N i = s ++ u := by
      intro d x j u s hd hn hx hji hu hl hg
      have e : ownName N i = s ++ u := by
        simp only [ownName, hd, if_pos hn]
        rcases upName_last (N := N) (nm := vecName N) (d := d) (i := i) (js := List.range N.length) (acc := []) with ⟨-, h⟩ | ⟨a, k, b, y, v, h1, h2, h3, h4, h5, h6⟩
        · rw [h j (by simpa using (List.getElem?_eq_some_iff.1 hx).1) x hx hji] at hu
          cases hu
        · have hjk : j = k := by
            rcases lt_trichotomy j k with h | h | h
            · rcases (suffix_iff hd h2 h3 v).1 h4 with ⟨c, hc, -⟩ | ⟨c, hc, -⟩
              · exact absurd hc (hl k h _ _)
              · exact absurd hc (hl k h _ _)
            · exact h
            · have := h5 j (range_split h1 j h (List.getElem?_eq_some_iff.1 hx).1) x hx hji
              rw [hu] at this; cases this
          subst hjk
          rw [hx] at h2; cases h2
          rw [hu] at h4; cases h4
          rw [h6, (vecName_given hx).2 s hg]
      rw [e]
      refine ⟨?_, rfl⟩
      rintro (h | h)
      · exact hg.2.1 (List.append_eq_nil_iff.1 h).1
      · rcases List.mem_append.1 h with h | h
        · exact hg.2.2 h
        · exact suffix_ok hu h
    rintro (⟨hd, hg⟩ | ⟨hd, hn, hx, hp, hl, hg⟩ | ⟨hd, hn, hx, hp, hl, hg⟩)
    · rename_i d
      obtain ⟨rfl, h2, h3⟩ := hg
      have : ownName N i = d.name := by simp only [ownName, hd, if_neg h2]
      rw [this]
      exact ⟨fun h => h.elim h2 h3, rfl⟩
    · have hp' := hp
      obtain ⟨-, -, -, -, hji, -⟩ := hp'
      exact part hd hn hx hji ((suffix_iff hd hx hji _).2 (.inl ⟨_, hp, rfl⟩)) hl hg
    · have hp' := hp
      obtain ⟨-, -, -, -, hji, -⟩ := hp'
      have := part hd hn hx hji ((suffix_iff hd hx hji _).2 (.inr ⟨_, hp, rfl⟩)) hl hg
      refine ⟨this.1, ?_⟩
      rw [this.2]
      simp only [List.append_assoc]
  · rintro ⟨hb, rfl⟩
    cases hd : N[i]? with
    | none => exact absurd (.inl (by simp [ownName, hd])) hb
    | some d =>
      by_cases hn : d.name = []
      · have e : ownName N i = upName N (vecName N) d i (List.range N.length) [] := by simp only [ownName, hd, if_pos hn]
        rw [e] at hb ⊢
        rcases upName_last (N := N) (nm := vecName N) (d := d) (i := i) (js := List.range N.length) (acc := []) with ⟨h, -⟩ | ⟨a, k, b, y, v, h1, h2, h3, h4, h5, h6⟩
        · exact absurd (.inl h) hb
        · rw [h6] at hb ⊢
          have hg := (vecName_given h2).1.1 (fun h => hb (.inr (by simp [h])))
          obtain ⟨s, hg⟩ := hg
          rw [(vecName_given h2).2 s hg]
          have hl : ∀ k' > k, ∀ b' c', ¬ PartOf N i k' b' c' := by
            intro k' hk' b' c' hp
            obtain ⟨d', x', u, q1, q2, q3, q4⟩ := partOf_suffix hp
            rw [hd] at q1; cases q1
            rw [h5 k' (range_split h1 k' hk' (List.getElem?_eq_some_iff.1 q2).1) x' q2 q3] at q4
            cases q4
          rcases (suffix_iff hd h2 h3 v).1 h4 with ⟨c, hc, rfl⟩ | ⟨c, hc, rfl⟩
          · exact .comp hd hn h2 hc hl hg
          · have := Label.slice hd hn h2 hc hl hg
            simp only [List.append_assoc] at this ⊢
            exact this
      · have e : ownName N i = d.name := by simp only [ownName, hd, if_neg hn]
        rw [e] at hb ⊢
        exact .own hd ⟨rfl, hn, fun h => hb (.inr h)⟩

theorem hasLabel_iff {N : List Dom} {i : Nat} : HasLabel N i ↔ ¬ Bad (ownName N i) :=
  ⟨fun ⟨s, hs⟩ => ((label_iff s).1 hs).1, fun h => ⟨_, (label_iff _).2 ⟨h, rfl⟩⟩⟩

theorem not_slice_of_eq {N : List Dom} (ho : EqOk N) {i j : Nat} {d : Dom} (hd : N[i]? = some d) (hj : j ∈ partners d i) (p : Nat) : d.kind ≠ .slice p := by
  intro hp
  obtain ⟨q, hq⟩ := ho.itv i d hd (by rintro h0; simp [partners, h0] at hj)
  rw [hq] at hp; cases hp

/-- **C129**: a domain that has a label by itself or by what contains it is given this label, within two calls -/
theorem C129_label {N : List Dom} (ho : EqOk N) {i : Nat} {s : List Char} (h : Label N i s) (n : Nat) (hn : 2 ≤ n) : varName N n i = some s := by
  obtain ⟨m, rfl⟩ := Nat.exists_eq_add_of_le' hn
  obtain ⟨hb, rfl⟩ := (label_iff s).1 h
  cases hd : N[i]? with
  | none => exact absurd (.inl (by simp [ownName, hd])) hb
  | some d =>
    by_cases hk : ∃ p, d.kind = .slice p
    · rw [slice_name ho hd hk, if_neg hb]
    · exact named_name ho hd (fun p hp => hk ⟨p, hp⟩) hb m

/-- **C129**: a domain without label gets the labels of the domains equal to it, joined by "/", when all of them have one -/
theorem C129_alias {N : List Dom} (ho : EqOk N) {i : Nat} {d : Dom} (hd : N[i]? = some d) (h : ¬ HasLabel N i) (lab : Nat → List Char)
    (hp : ∀ j ∈ partners d i, Label N j (lab j)) (n : Nat) (hn : 3 ≤ n) :
    varName N n i = some (if partners d i = [] then ['?'] else List.intercalate ['/'] ((partners d i).map lab)) := by
  obtain ⟨m, rfl⟩ := Nat.exists_eq_add_of_le' hn
  rw [hasLabel_iff, not_not] at h
  have hj : ∀ (js : List Nat) (acc : List Char), (∀ j ∈ js, Label N j (lab j)) →
      joined (ownName N) js acc = if acc = [] then List.intercalate ['/'] (js.map lab) else List.intercalate ['/'] (acc :: js.map lab) := by
    intro js
    induction js with
    | nil => intro acc _; simp only [joined, List.map_nil]; split_ifs with h <;> simp [h, List.intercalate, List.intersperse]
    | cons j js ih =>
      intro acc hl
      obtain ⟨hb, he⟩ := (label_iff _).1 (hl j (by simp))
      have hne : lab j ≠ [] := fun e => hb (.inl (he.trans e))
      rw [joined, if_neg hb, ih _ fun k hk => hl k (by simp [hk]), he, List.map_cons]
      by_cases ha : acc = []
      · subst ha; simp [hne]
      · rw [if_neg (by simp [hne]), if_neg ha, if_neg ha]
        cases js with
        | nil => simp [List.intercalate, List.intersperse]
        | cons k js => simp [List.intercalate, List.intersperse]
  by_cases hk : ∃ p, d.kind = .slice p
  · have he : partners d i = [] := by
      by_contra hne
      obtain ⟨j, hj'⟩ := List.exists_mem_of_ne_nil _ hne
      obtain ⟨p, hp'⟩ := hk
      exact not_slice_of_eq ho hd hj' p hp'
    rw [slice_name ho hd hk (m + 1), if_pos h, if_pos he]
  · rw [alias_name ho hd (fun p hp => hk ⟨p, hp⟩) h (fun j hj' => ((label_iff _).1 (hp j hj')).1) m, hj _ _ hp, if_pos rfl]
    cases hpe : partners d i with
    | nil => simp [List.intercalate]
    | cons j js =>
      have hb := ((label_iff _).1 (hp j (by rw [hpe]; simp)))
      have hne : lab j ≠ [] := fun e => hb.1 (.inl (hb.2.trans e))
      have : List.intercalate ['/'] ((j :: js).map lab) ≠ [] := by
        cases js with
        | nil => simpa [List.intercalate, List.intersperse] using hne
        | cons k js => simp [List.intercalate, hne]
      rw [if_neg this, if_neg (by simp)]

/-- **C129**: the computation of the name of a domain ends exactly when it has a label, or when all the domains equal to it have one -/
theorem C129_ends {N : List Dom} (ho : EqOk N) {i : Nat} {d : Dom} (hd : N[i]? = some d) :
    (∃ n, varName N n i ≠ none) ↔ HasLabel N i ∨ ∀ j ∈ partners d i, HasLabel N j := by
  constructor
  · rintro ⟨n, hn⟩
    by_contra hc
    push Not at hc
    obtain ⟨hi, j, hj, hb⟩ := hc
    rw [hasLabel_iff, not_not] at hi hb
    exact hn (loop_name ho n hd hi hj hb)
  · intro h
    by_cases hl : HasLabel N i
    · obtain ⟨s, hs⟩ := hl
      exact ⟨2, by rw [C129_label ho hs 2 (le_refl _)]; simp⟩
    · have hp := h.resolve_left hl
      refine ⟨3, ?_⟩
      rw [C129_alias ho hd hl (ownName N) (fun j hj => (label_iff _).2 ⟨hasLabel_iff.1 (hp j hj), rfl⟩) 3 (le_refl _)]
      simp

/-- **C129**: `print_dot_graph` ends exactly when each contractor of equality joins domains one of which at least has a label -/
theorem C129_graph_partial {N : List Dom} (ho : EqOk N) :
    (∃ n, allNames N n ≠ none) ↔ ∀ (i j : Nat) (d : Dom), N[i]? = some d → j ∈ partners d i → HasLabel N i ∨ HasLabel N j := by
  have hm : ∀ (n : Nat) (l : List Nat), l.mapM (varName N n) ≠ none ↔ ∀ i ∈ l, varName N n i ≠ none := by
    intro n l
    induction l with
    | nil => simp
    | cons a l ih =>
      rw [List.mapM_cons]
      cases ha : varName N n a with
      | none => simp [ha]
      | some r =>
        cases hl : l.mapM (varName N n) with
        | none =>
          have := ih.not.1 (by simp [hl])
          simp only [List.mem_cons, forall_eq_or_imp, ha]
          simp [this]
        | some t =>
          have := ih.1 (by simp [hl])
          simp only [List.mem_cons, forall_eq_or_imp, ha]
          simpa using this
  constructor
  · rintro ⟨n, hn⟩ i j d hd hj
    have := (hm n _).1 hn i (by simpa using (List.getElem?_eq_some_iff.1 hd).1)
    rcases (C129_ends ho hd).1 ⟨n, this⟩ with h | h
    · exact .inl h
    · exact .inr (h j hj)
  · intro h
    refine ⟨3, (hm 3 _).2 fun i hi => ?_⟩
    have hd : N[i]? = some (N[i]'(by simpa using hi)) := List.getElem?_eq_getElem _
    by_cases hl : HasLabel N i
    · obtain ⟨s, hs⟩ := hl
      rw [C129_label ho hs 3 (by omega)]; simp
    · rw [C129_alias ho hd hl (ownName N) (fun j hj => (label_iff _).2 ⟨hasLabel_iff.1 ((h i j _ hd hj).resolve_left hl), rfl⟩) 3 (le_refl _)]
      simp

/-! ### Networks -/

/-- a vector `v` of one component (names `v`), its subvector `w` (name `w`), and the equality of their components, in the order of the calls of `subvector` -/
def subNet (v w : List Char) : List Dom := [⟨.vec [0], v, []⟩, ⟨.vec [1], w, []⟩, ⟨.itv 1, [], [[2, 3]]⟩, ⟨.itv 0, [], [[2, 3]]⟩]

theorem subNet_ok (v w : List Char) : EqOk (subNet v w) := by
  constructor
  · intro i d hd he
    match i, hd with
    | 0, hd => simp [subNet] at hd; subst hd; simp at he
    | 1, hd => simp [subNet] at hd; subst hd; simp at he
    | 2, hd => simp [subNet] at hd; subst hd; exact ⟨_, rfl⟩
    | 3, hd => simp [subNet] at hd; subst hd; exact ⟨_, rfl⟩
    | i + 4, hd => simp [subNet] at hd
  · intro i j d hd hj
    match i, hd with
    | 0, hd => simp [subNet] at hd; subst hd; simp [partners] at hj
    | 1, hd => simp [subNet] at hd; subst hd; simp [partners] at hj
    | 2, hd => simp [subNet] at hd; subst hd; simp [partners] at hj; subst hj; exact ⟨_, rfl, by simp [partners]⟩
    | 3, hd => simp [subNet] at hd; subst hd; simp [partners] at hj; subst hj; exact ⟨_, rfl, by simp [partners]⟩
    | i + 4, hd => simp [subNet] at hd

/-- the vector has a name: its component is `x1`, and so is the one of the subvector -/
example : allNames (subNet "x".toList []) 3 = some ["x".toList, "?".toList, "x1".toList, "x1".toList] := by decide +kernel

/-- **C129** fails: after `subvector` on a vector that was given no name, the computation of the names never ends -/
theorem C129_subvector_fails : EqOk (subNet [] []) ∧ ∀ n, allNames (subNet [] []) n = none := by
  refine ⟨subNet_ok _ _, fun n => ?_⟩
  by_contra h
  rcases (C129_graph_partial (subNet_ok [] [])).1 ⟨n, h⟩ 2 3 ⟨.itv 1, [], [[2, 3]]⟩ rfl (by simp [partners]) with h | h
  · rw [hasLabel_iff] at h
    exact h (by decide +kernel)
  · rw [hasLabel_iff] at h
    exact h (by decide +kernel)

/-- the subvector of a subvector: the components 4 (of `u`), 3 (of `w`), 5 (of `v`, the first vector) -/
def subSubNet : List Dom := [⟨.vec [0], "x".toList, []⟩, ⟨.vec [1], [], []⟩, ⟨.vec [2], [], []⟩, ⟨.itv 1, [], [[3, 5], [4, 3]]⟩, ⟨.itv 2, [], [[4, 3]]⟩, ⟨.itv 0, [], [[3, 5]]⟩]

theorem subSubNet_ok : EqOk subSubNet := by
  constructor
  · intro i d hd he
    match i, hd with
    | 0, hd => simp [subSubNet] at hd; subst hd; simp at he
    | 1, hd => simp [subSubNet] at hd; subst hd; simp at he
    | 2, hd => simp [subSubNet] at hd; subst hd; simp at he
    | 3, hd => simp [subSubNet] at hd; subst hd; exact ⟨_, rfl⟩
    | 4, hd => simp [subSubNet] at hd; subst hd; exact ⟨_, rfl⟩
    | 5, hd => simp [subSubNet] at hd; subst hd; exact ⟨_, rfl⟩
    | i + 6, hd => simp [subSubNet] at hd
  · intro i j d hd hj
    match i, hd with
    | 0, hd => simp [subSubNet] at hd; subst hd; simp [partners] at hj
    | 1, hd => simp [subSubNet] at hd; subst hd; simp [partners] at hj
    | 2, hd => simp [subSubNet] at hd; subst hd; simp [partners] at hj
    | 3, hd =>
      simp [subSubNet] at hd; subst hd; simp [partners] at hj
      rcases hj with rfl | rfl
      · exact ⟨_, rfl, by simp [partners]⟩
      · exact ⟨_, rfl, by simp [partners]⟩
    | 4, hd => simp [subSubNet] at hd; subst hd; simp [partners] at hj; subst hj; exact ⟨_, rfl, by simp [partners]⟩
    | 5, hd => simp [subSubNet] at hd; subst hd; simp [partners] at hj; subst hj; exact ⟨_, rfl, by simp [partners]⟩
    | i + 6, hd => simp [subSubNet] at hd

/-- **C129** fails: even when the first vector has a name, the subvector of a subvector makes the computation endless -/
theorem C129_subsubvector_fails : EqOk subSubNet ∧ ∀ n, allNames subSubNet n = none := by
  refine ⟨subSubNet_ok, fun n => ?_⟩
  by_contra h
  rcases (C129_graph_partial subSubNet_ok).1 ⟨n, h⟩ 3 4 ⟨.itv 1, [], [[3, 5], [4, 3]]⟩ rfl (by simp [partners]) with h | h
  · rw [hasLabel_iff] at h
    exact h (by decide +kernel)
  · rw [hasLabel_iff] at h
    exact h (by decide +kernel)

/-- **C129** fails: two different domains can have the same name in the graph, although all the names given are different: the component 2 of `x1` and the component 12 of `x` -/
theorem C129_distinct_fails : ∃ N : List Dom, EqOk N ∧ (∀ (i j : Nat) (d e : Dom), i ≠ j → N[i]? = some d → N[j]? = some e → d.name ≠ [] → d.name ≠ e.name) ∧
    ∃ i j s, i ≠ j ∧ Label N i s ∧ Label N j s := by
  refine ⟨[⟨.vec [0, 1], "x1".toList, []⟩, ⟨.vec (List.range' 2 12), "x".toList, []⟩, ⟨.itv 1, [], []⟩, ⟨.itv 13, [], []⟩], ?_, ?_, 2, 3, "x12".toList, by decide, ?_, ?_⟩
  · constructor
    · intro i d hd he
      match i, hd with
      | 0, hd => simp at hd; subst hd; simp at he
      | 1, hd => simp at hd; subst hd; simp at he
      | 2, hd => simp at hd; subst hd; simp at he
      | 3, hd => simp at hd; subst hd; simp at he
      | i + 4, hd => simp at hd
    · intro i j d hd hj
      match i, hd with
      | 0, hd => simp at hd; subst hd; simp [partners] at hj
      | 1, hd => simp at hd; subst hd; simp [partners] at hj
      | 2, hd => simp at hd; subst hd; simp [partners] at hj
      | 3, hd => simp at hd; subst hd; simp [partners] at hj
      | i + 4, hd => simp at hd
  · intro i j d e hij hd he hn
    match i, j, hd, he with
    | 0, 0, _, _ => exact absurd rfl hij
    | 0, 1, hd, he => simp at hd he; subst hd he; decide
    | 0, 2, hd, he => simp at hd he; subst hd he; decide
    | 0, 3, hd, he => simp at hd he; subst hd he; decide
    | 1, 0, hd, he => simp at hd he; subst hd he; decide
    | 1, 1, _, _ => exact absurd rfl hij
    | 1, 2, hd, he => simp at hd he; subst hd he; decide
    | 1, 3, hd, he => simp at hd he; subst hd he; decide
    | 2, _, hd, _ => simp at hd; subst hd; simp at hn
    | 3, _, hd, _ => simp at hd; subst hd; simp at hn
    | i + 4, _, hd, _ => simp at hd
    | 0, j + 4, _, he => simp at he
    | 1, j + 4, _, he => simp at he
  · rw [label_iff]; decide +kernel
  · rw [label_iff]; decide +kernel

/-- **C129** fails: a name given with a question mark is not shown -/
theorem C129_question_fails : ∃ N : List Dom, EqOk N ∧ (∃ d, N[0]? = some d ∧ d.name = "is it?".toList) ∧ ∀ n, 1 ≤ n → varName N n 0 = some ['?'] := by
  refine ⟨[⟨.vec [0], "is it?".toList, []⟩], ?_, ⟨_, rfl, rfl⟩, fun n hn => ?_⟩
  · constructor
    · intro i d hd he
      match i, hd with
      | 0, hd => simp at hd; subst hd; simp at he
      | i + 1, hd => simp at hd
    · intro i j d hd hj
      match i, hd with
      | 0, hd => simp at hd; subst hd; simp [partners] at hj
      | i + 1, hd => simp at hd
  · obtain ⟨m, rfl⟩ := Nat.exists_eq_add_of_le' hn
    simp [varName, Bad, partners, eqLoop]

/-- slices: a tube with a name, one without -/
example : allNames [⟨.tube [0, 1], "x".toList, []⟩, ⟨.slice 1, [], []⟩, ⟨.tube [2], [], []⟩, ⟨.slice 2, [], []⟩, ⟨.tvec, "v".toList, []⟩] 3 =
    some ["x".toList, "x^{(2)}".toList, "?".toList, "?".toList, "v".toList] := by decide +kernel

end Codac.Props
