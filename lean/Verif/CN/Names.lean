import Mathlib.Data.List.Basic
import Mathlib.Data.Nat.Basic
import Mathlib.Tactic.Tauto

/-!
# The names of the domains of a contractor network

Source: `Domain::var_name`, `is_component_of`, `is_slice_of` of `src/core/cn/codac_Domain.cpp`, called by `ContractorNetwork::print_dot_graph`. The domains are numbered in the order of the
map `m_map_domains` (the order of their hash codes: any order). Addresses are numbers. The recursive calls are given a depth: `none` is a call that needs more than this depth.
-/

namespace Codac.Names

/-- the type of a domain, with the addresses compared by `is_component_of` and `is_slice_of` -/
inductive Kind where
  /-- T_INTERVAL, address of the interval -/
  | itv (p : Nat)
  /-- T_INTERVAL_VECTOR, addresses of the components -/
  | vec (ps : List Nat)
  /-- T_SLICE -/
  | slice (p : Nat)
  /-- T_TUBE, addresses of the slices -/
  | tube (ps : List Nat)
  /-- T_TUBE_VECTOR -/
  | tvec
  deriving DecidableEq

/-- a domain of the network: codac_Domain.h:126-187; `eqs` are the lists `domains()` of its contractors of type T_EQUALITY, in the order of `m_v_ctc` -/
structure Dom where
  kind : Kind
  name : List Char
  eqs : List (List Nat) := []

/-- `is_component_of`, codac_Domain.cpp:800-821: the components of tube vectors are never found (default case, line 814) -/
def compOf (d x : Dom) : Option Nat :=
  match d.kind, x.kind with
  | .itv p, .vec ps => if p ∈ ps then some (ps.idxOf p) else none
  | _, _ => none

/-- `is_slice_of`, codac_Domain.cpp:829-844 -/
def sliceOf (d x : Dom) : Option Nat :=
  match d.kind, x.kind with
  | .slice p, .tube ps => if p ∈ ps then some (ps.idxOf p) else none
  | _, _ => none

/-- `std::to_string` -/
def num (n : Nat) : List Char := Nat.toDigits 10 n

/-- what is added to the name of `x` for its component or slice `d`, codac_Domain.cpp:939 and 954 -/
def suffix (d x : Dom) : Option (List Char) :=
  match compOf d x, sliceOf d x with
  | some c, _ => some (num (c + 1))
  | none, some c => some ("^{(".toList ++ num (c + 1) ++ ")}".toList)
  | none, none => none

/-- the domains the equality contractors of the domain `i` mention, without itself, codac_Domain.cpp:971-977 -/
def partners (d : Dom) (i : Nat) : List Nat := d.eqs.flatten.filter (· ≠ i)

/-- the test of lines 968 and 980 -/
def Bad (s : List Char) : Prop := s = [] ∨ '?' ∈ s

instance (s : List Char) : Decidable (Bad s) := by unfold Bad; infer_instance

/-- the loop over the domains, codac_Domain.cpp:931-942 and 948-957, `call` being the recursive call -/
def upLoop (N : List Dom) (call : Nat → Option (List Char)) (d : Dom) (i : Nat) : List Nat → List Char → Option (List Char)
  | [], acc => some acc
  | j :: js, acc =>
    match N[j]? with
    | none => upLoop N call d i js acc
    | some x =>
      if j = i then upLoop N call d i js acc
      else match suffix d x with
        | none => upLoop N call d i js acc
        | some s =>
          match call j with
          | none => none
          | some r => upLoop N call d i js (r ++ s)

/-- the loop over the contractors of equality, codac_Domain.cpp:973-985 -/
def eqLoop (call : Nat → Option (List Char)) : List Nat → List Char → Option (List Char)
  | [], acc => some acc
  | j :: js, acc =>
    match call j with
    | none => none
    | some r => eqLoop call js (if Bad r then acc else acc ++ (if acc = [] then [] else ['/']) ++ r)

/-- `Domain::var_name`, codac_Domain.cpp:920-992; the first argument bounds the depth of the calls -/
def varName (N : List Dom) : Nat → Nat → Option (List Char)
  | 0, _ => none
  | n + 1, i =>
    match N[i]? with
    | none => none
    | some d =>
      match (if d.name = [] then upLoop N (varName N n) d i (List.range N.length) [] else some d.name) with
      | none => none
      | some s =>
        if Bad s then
          match eqLoop (varName N n) (partners d i) [] with
          | none => none
          | some r => some (if r = [] then ['?'] else r)
        else some s

/-- `print_dot_graph`: the names of all the domains, codac_ContractorNetwork_visu.cpp:79-80 -/
def allNames (N : List Dom) (n : Nat) : Option (List (List Char)) := (List.range N.length).mapM (varName N n)

/-- what holds in the networks built with `add` and `subvector` (codac_ContractorNetwork.cpp:106-161): the contractors of equality join intervals, and each of them is known to both -/
structure EqOk (N : List Dom) : Prop where
  itv : ∀ (i : Nat) (d : Dom), N[i]? = some d → d.eqs ≠ [] → ∃ p, d.kind = .itv p
  sym : ∀ (i j : Nat) (d : Dom), N[i]? = some d → j ∈ partners d i → ∃ e, N[j]? = some e ∧ i ∈ partners e j

/-! ### Lemmas -/

theorem num_ok (n : Nat) : '?' ∉ num n := by
  intro h
  have := Nat.isDigit_of_mem_toDigits (by decide) (by decide) h
  exact absurd this (by decide)

theorem suffix_ok {d x : Dom} {s : List Char} (h : suffix d x = some s) : '?' ∉ s := by
  unfold suffix at h
  split at h
  · cases h; exact num_ok _
  · cases h
    simp only [List.mem_append, not_or]
    exact ⟨⟨by decide, num_ok _⟩, by decide⟩
  · cases h

/-- name given by the domains that contain `i`, if those have the names `nm` -/
def upName (N : List Dom) (nm : Nat → List Char) (d : Dom) (i : Nat) : List Nat → List Char → List Char
  | [], acc => acc
  | j :: js, acc =>
    match N[j]? with
    | none => upName N nm d i js acc
    | some x =>
      if j = i then upName N nm d i js acc
      else match suffix d x with
        | none => upName N nm d i js acc
        | some s => upName N nm d i js (nm j ++ s)

theorem upLoop_eq {N : List Dom} {call : Nat → Option (List Char)} {nm : Nat → List Char} {d : Dom} {i : Nat} :
    ∀ {js : List Nat} {acc : List Char}, (∀ j ∈ js, ∀ x, N[j]? = some x → j ≠ i → ∀ s, suffix d x = some s → call j = some (nm j)) →
      upLoop N call d i js acc = some (upName N nm d i js acc)
  | [], _, _ => rfl
  | j :: js, acc, h => by
    have ih := fun acc => upLoop_eq (js := js) (acc := acc) fun j hj => h j (by simp [hj])
    unfold upLoop upName
    cases hx : N[j]? with
    | none => exact ih acc
    | some x =>
      dsimp only
      by_cases hji : j = i
      · rw [if_pos hji, if_pos hji]; exact ih acc
      · rw [if_neg hji, if_neg hji]
        cases hs : suffix d x with
        | none => exact ih acc
        | some s =>
          dsimp only
          rw [h j (by simp) x hx hji s hs]
          exact ih _

theorem upLoop_none {N : List Dom} {call : Nat → Option (List Char)} {d : Dom} {i j : Nat} {x : Dom} {s : List Char} :
    ∀ {js : List Nat} {acc : List Char}, j ∈ js → N[j]? = some x → j ≠ i → suffix d x = some s → call j = none → upLoop N call d i js acc = none
  | [], _, h, _, _, _, _ => by simp at h
  | k :: js, acc, h, hx, hji, hs, hc => by
    rcases List.mem_cons.1 h with rfl | h
    · simp [upLoop, hx, hji, hs, hc]
    · have ih := fun acc => upLoop_none (js := js) (acc := acc) h hx hji hs hc
      unfold upLoop
      split
      · exact ih _
      · split_ifs
        · exact ih _
        · split
          · exact ih _
          · split
            · rfl
            · exact ih _

/-- the last domain that contains `i` decides -/
theorem upName_last {N : List Dom} {nm : Nat → List Char} {d : Dom} {i : Nat} : ∀ {js : List Nat} {acc : List Char},
    (upName N nm d i js acc = acc ∧ ∀ j ∈ js, ∀ x, N[j]? = some x → j ≠ i → suffix d x = none) ∨
    ∃ a j b x s, js = a ++ j :: b ∧ N[j]? = some x ∧ j ≠ i ∧ suffix d x = some s ∧ (∀ k ∈ b, ∀ y, N[k]? = some y → k ≠ i → suffix d y = none) ∧
      upName N nm d i js acc = nm j ++ s
  | [], acc => .inl ⟨rfl, by simp⟩
  | j :: js, acc => by
    have key : ∀ acc', upName N nm d i (j :: js) acc = upName N nm d i js acc' →
        ((acc' = acc ∧ ∀ x, N[j]? = some x → j ≠ i → suffix d x = none) ∨ ∃ x s, N[j]? = some x ∧ j ≠ i ∧ suffix d x = some s ∧ acc' = nm j ++ s) →
        (upName N nm d i (j :: js) acc = acc ∧ ∀ k ∈ j :: js, ∀ x, N[k]? = some x → k ≠ i → suffix d x = none) ∨
        ∃ a k b x s, j :: js = a ++ k :: b ∧ N[k]? = some x ∧ k ≠ i ∧ suffix d x = some s ∧ (∀ q ∈ b, ∀ y, N[q]? = some y → q ≠ i → suffix d y = none) ∧
          upName N nm d i (j :: js) acc = nm k ++ s := by
      intro acc' e hc
      rw [e]
      rcases upName_last (N := N) (nm := nm) (d := d) (i := i) (js := js) (acc := acc') with ⟨h1, h2⟩ | ⟨a, k, b, x, s, h1, h2⟩
      · rcases hc with ⟨rfl, hc⟩ | ⟨x, s, c1, c2, c3, c4⟩
        · left
          refine ⟨h1, fun k hk => ?_⟩
          rcases List.mem_cons.1 hk with rfl | hk
          · exact hc
          · exact h2 k hk
        · exact .inr ⟨[], j, js, x, s, rfl, c1, c2, c3, h2, by rw [h1, c4]⟩
      · exact .inr ⟨j :: a, k, b, x, s, by rw [h1]; rfl, h2⟩
    cases hx : N[j]? with
    | none => exact key acc (by simp [upName, hx]) (.inl ⟨rfl, by simp [hx]⟩)
    | some x =>
      by_cases hji : j = i
      · exact key acc (by simp only [upName, hx, if_pos hji]) (.inl ⟨rfl, fun _ _ h => absurd hji h⟩)
      · cases hs : suffix d x with
        | none => exact key acc (by simp only [upName, hx, if_neg hji, hs]) (.inl ⟨rfl, fun y hy _ => by rw [hx] at hy; cases hy; exact hs⟩)
        | some s => exact key (nm j ++ s) (by simp only [upName, hx, if_neg hji, hs]) (.inr ⟨x, s, hx, hji, hs, rfl⟩)

/-- the names joined by "/" -/
def joined (nm : Nat → List Char) : List Nat → List Char → List Char
  | [], acc => acc
  | j :: js, acc => joined nm js (if Bad (nm j) then acc else acc ++ (if acc = [] then [] else ['/']) ++ nm j)

theorem eqLoop_eq {call : Nat → Option (List Char)} {nm : Nat → List Char} : ∀ {js : List Nat} {acc : List Char}, (∀ j ∈ js, call j = some (nm j)) →
    eqLoop call js acc = some (joined nm js acc)
  | [], _, _ => rfl
  | j :: js, acc, h => by
    rw [eqLoop, h j (by simp), joined]
    exact eqLoop_eq fun k hk => h k (by simp [hk])

theorem eqLoop_none {call : Nat → Option (List Char)} {j : Nat} : ∀ {js : List Nat} {acc : List Char}, j ∈ js → call j = none → eqLoop call js acc = none
  | [], _, h, _ => by simp at h
  | k :: js, acc, h, hc => by
    rw [eqLoop]
    rcases List.mem_cons.1 h with rfl | h
    · rw [hc]
    · cases call k with
      | none => rfl
      | some r => exact eqLoop_none h hc

/-- name of a vector -/
def vecName (N : List Dom) (j : Nat) : List Char :=
  match N[j]? with
  | none => []
  | some x => if Bad x.name then ['?'] else x.name

/-- name of a domain by itself or by the vector that contains it, before the equalities are looked at -/
def ownName (N : List Dom) (i : Nat) : List Char :=
  match N[i]? with
  | none => []
  | some d => if d.name = [] then upName N (vecName N) d i (List.range N.length) [] else d.name

theorem upLoop_skip {N : List Dom} {call : Nat → Option (List Char)} {d : Dom} {i : Nat} (h : ∀ x, suffix d x = none) :
    ∀ {js : List Nat} {acc : List Char}, upLoop N call d i js acc = some acc
  | [], _ => rfl
  | j :: js, acc => by
    have ih := fun acc => upLoop_skip (N := N) (call := call) (i := i) h (js := js) (acc := acc)
    unfold upLoop
    split
    · exact ih acc
    · rw [h]; simp only [ih, ite_self]

theorem vec_name {N : List Dom} (ho : EqOk N) {j : Nat} {x : Dom} (hx : N[j]? = some x) (hk : (∃ ps, x.kind = .vec ps)) (n : Nat) :
    varName N (n + 1) j = some (vecName N j) := by
  obtain ⟨ps, hk⟩ := hk
  have hs : ∀ y, suffix x y = none := by intro y; simp [suffix, compOf, sliceOf, hk]
  have he : x.eqs = [] := by
    by_contra h
    obtain ⟨p, hp⟩ := ho.itv j x hx h
    rw [hk] at hp; cases hp
  have h1 : (if x.name = [] then upLoop N (varName N n) x j (List.range N.length) [] else some x.name) = some x.name := by
    split_ifs with h
    · rw [upLoop_skip hs, h]
    · rfl
  simp only [varName, hx]
  rw [h1]
  simp only [partners, he, List.flatten_nil, List.filter_nil, eqLoop, if_true, vecName, hx]
  split_ifs <;> rfl

theorem suffix_itv {d x : Dom} {p : Nat} {s : List Char} (hd : d.kind = .itv p) (h : suffix d x = some s) : ∃ ps, x.kind = .vec ps := by
  cases hk : x.kind <;> simp_all [suffix, compOf, sliceOf]

theorem suffix_slice {d x : Dom} {p : Nat} {s : List Char} (hd : d.kind = .slice p) (h : suffix d x = some s) : ∃ ps, x.kind = .tube ps := by
  cases hk : x.kind <;> simp_all [suffix, compOf, sliceOf]

theorem suffix_other {d : Dom} (hd : (∀ p, d.kind ≠ .itv p) ∧ ∀ p, d.kind ≠ .slice p) (x : Dom) : suffix d x = none := by
  cases hk : d.kind <;> simp_all [suffix, compOf, sliceOf]

/-- the first part of `var_name`, for a domain that is not a slice -/
theorem own_name {N : List Dom} (ho : EqOk N) {i : Nat} {d : Dom} (hd : N[i]? = some d) (hk : ∀ p, d.kind ≠ .slice p) (n : Nat) :
    (if d.name = [] then upLoop N (varName N (n + 1)) d i (List.range N.length) [] else some d.name) = some (ownName N i) := by
  simp only [ownName, hd]
  split_ifs with h
  · refine upLoop_eq fun j _ x hx hji s hs => ?_
    by_cases hi : ∃ p, d.kind = .itv p
    · obtain ⟨p, hp⟩ := hi
      exact vec_name ho hx (suffix_itv hp hs) n
    · rw [suffix_other ⟨fun p hp => hi ⟨p, hp⟩, hk⟩] at hs
      cases hs
  · rfl

theorem own_name_zero {N : List Dom} (ho : EqOk N) {i : Nat} {d : Dom} (hd : N[i]? = some d) (hk : ∀ p, d.kind ≠ .slice p) (n : Nat) :
    (if d.name = [] then upLoop N (varName N n) d i (List.range N.length) [] else some d.name) = none ∨
    (if d.name = [] then upLoop N (varName N n) d i (List.range N.length) [] else some d.name) = some (ownName N i) := by
  cases n with
  | succ n => exact .inr (own_name ho hd hk n)
  | zero =>
    by_cases h : d.name = []
    · rw [if_pos h]
      by_cases hu : ∃ j ∈ List.range N.length, ∃ x s, N[j]? = some x ∧ j ≠ i ∧ suffix d x = some s
      · obtain ⟨j, hj, x, s, h1, h2, h3⟩ := hu
        exact .inl (upLoop_none hj h1 h2 h3 rfl)
      · right
        simp only [ownName, hd, if_pos h]
        exact upLoop_eq fun j hj x hx hji s hs => absurd ⟨j, hj, x, s, hx, hji, hs⟩ hu
    · rw [if_neg h]
      right
      simp only [ownName, hd, if_neg h]

theorem named_name {N : List Dom} (ho : EqOk N) {i : Nat} {d : Dom} (hd : N[i]? = some d) (hk : ∀ p, d.kind ≠ .slice p) (h : ¬ Bad (ownName N i)) (n : Nat) :
    varName N (n + 2) i = some (ownName N i) := by
  rw [varName, hd]
  simp only [own_name ho hd hk n, if_neg h]

theorem alias_name {N : List Dom} (ho : EqOk N) {i : Nat} {d : Dom} (hd : N[i]? = some d) (hk : ∀ p, d.kind ≠ .slice p) (h : Bad (ownName N i))
    (hp : ∀ j ∈ partners d i, ¬ Bad (ownName N j)) (n : Nat) :
    varName N (n + 3) i = some (if joined (ownName N) (partners d i) [] = [] then ['?'] else joined (ownName N) (partners d i) []) := by
  rw [varName, hd]
  simp only [own_name ho hd hk (n + 1), if_pos h]
  rw [eqLoop_eq (nm := ownName N)]
  intro j hj
  obtain ⟨e, he, hi⟩ := ho.sym i j d hd hj
  refine named_name ho he ?_ (hp j hj) n
  intro p hp'
  obtain ⟨q, hq⟩ := ho.itv j e he (by rintro h0; simp [partners, h0] at hi)
  rw [hq] at hp'; cases hp'

/-- two domains without names, joined by an equality, call each other forever -/
theorem loop_name {N : List Dom} (ho : EqOk N) : ∀ (n : Nat) {i j : Nat} {d : Dom}, N[i]? = some d → Bad (ownName N i) → j ∈ partners d i → Bad (ownName N j) →
    varName N n i = none
  | 0, _, _, _, _, _, _, _ => rfl
  | n + 1, i, j, d, hd, hi, hj, hb => by
    obtain ⟨e, he, hi'⟩ := ho.sym i j d hd hj
    have ih := loop_name ho n he hb hi' hi
    have hk : ∀ p, d.kind ≠ .slice p := by
      intro p hp
      obtain ⟨q, hq⟩ := ho.itv i d hd (by rintro h0; simp [partners, h0] at hj)
      rw [hq] at hp; cases hp
    rw [varName, hd]
    dsimp only
    rcases own_name_zero ho hd hk n with h | h
    · rw [h]
    · rw [h]
      simp only [if_pos hi]
      rw [eqLoop_none hj ih]

theorem tube_name {N : List Dom} (ho : EqOk N) {j : Nat} {x : Dom} (hx : N[j]? = some x) (hk : ∃ ps, x.kind = .tube ps) (n : Nat) :
    varName N (n + 1) j = some (vecName N j) := by
  obtain ⟨ps, hk⟩ := hk
  have hs : ∀ y, suffix x y = none := by intro y; simp [suffix, compOf, sliceOf, hk]
  have he : x.eqs = [] := by
    by_contra h
    obtain ⟨p, hp⟩ := ho.itv j x hx h
    rw [hk] at hp; cases hp
  have h1 : (if x.name = [] then upLoop N (varName N n) x j (List.range N.length) [] else some x.name) = some x.name := by
    split_ifs with h
    · rw [upLoop_skip hs, h]
    · rfl
  simp only [varName, hx]
  rw [h1]
  simp only [partners, he, List.flatten_nil, List.filter_nil, eqLoop, if_true, vecName, hx]
  split_ifs <;> rfl

theorem slice_name {N : List Dom} (ho : EqOk N) {i : Nat} {d : Dom} (hd : N[i]? = some d) (hk : ∃ p, d.kind = .slice p) (n : Nat) :
    varName N (n + 2) i = some (if Bad (ownName N i) then ['?'] else ownName N i) := by
  obtain ⟨p, hk⟩ := hk
  have he : d.eqs = [] := by
    by_contra h
    obtain ⟨q, hq⟩ := ho.itv i d hd h
    rw [hk] at hq; cases hq
  have h1 : (if d.name = [] then upLoop N (varName N (n + 1)) d i (List.range N.length) [] else some d.name) = some (ownName N i) := by
    simp only [ownName, hd]
    split_ifs with h
    · exact upLoop_eq fun j _ x hx hji s hs => tube_name ho hx (suffix_slice hk hs) n
    · rfl
  rw [varName, hd]
  dsimp only
  rw [h1]
  simp only [partners, he, List.flatten_nil, List.filter_nil, eqLoop, if_true]
  split_ifs <;> rfl

end Codac.Names
