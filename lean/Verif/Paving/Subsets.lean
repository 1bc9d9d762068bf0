import Verif.Paving.Model
import Verif.Sivia.Sound
import Mathlib.Logic.Relation
import Mathlib.Data.List.Nodup
import Mathlib.Data.List.Perm.Basic

/-!
# Pavings: leaves and connected subsets
-/

set_option linter.unusedSectionVars false

namespace Codac
namespace Paving

variable {K : Type*} [Field K] [LinearOrder K] [IsStrictOrderedRing K]

/-- the boxes have dimension `n` and the sub-pavings are inside their parents -/
def WF (n : Nat) : Paving K → Prop
  | leaf b _ => b.length = n
  | node b _ l r => b.length = n ∧ BoxLe l.box b ∧ BoxLe r.box b ∧ l.WF n ∧ r.WF n

theorem WF.box_length {n : Nat} {P : Paving K} (h : P.WF n) : P.box.length = n := by
  cases P with
  | leaf => exact h
  | node => exact h.1

theorem WF.leaf_le {n : Nat} {P : Paving K} (h : P.WF n) {t : Nat} {path : List Bool} : ∀ p ∈ P.leaves t path, BoxLe p.box P.box := by
  induction P generalizing path with
  | leaf b v =>
    intro p hp
    simp only [leaves, List.mem_cons, List.not_mem_nil, or_false] at hp
    subst hp; exact BoxLe.refl _
  | node b v l r ihl ihr =>
    obtain ⟨_, h1, h2, h3, h4⟩ := h
    intro p hp
    simp only [leaves, List.mem_append] at hp
    rcases hp with hp | hp
    · exact (ihl h3 p hp).trans h1
    · exact (ihr h4 p hp).trans h2

theorem leaves_path {P : Paving K} {t : Nat} {path : List Bool} : ∀ p ∈ P.leaves t path, ∃ q, p.path = path ++ q := by
  induction P generalizing path with
  | leaf b v =>
    intro p hp
    simp only [leaves, List.mem_cons, List.not_mem_nil, or_false] at hp
    subst hp; exact ⟨[], by simp⟩
  | node b v l r ihl ihr =>
    intro p hp
    simp only [leaves, List.mem_append] at hp
    rcases hp with hp | hp
    · obtain ⟨q, hq⟩ := ihl p hp; exact ⟨false :: q, by simp [hq]⟩
    · obtain ⟨q, hq⟩ := ihr p hp; exact ⟨true :: q, by simp [hq]⟩

theorem leaves_nodup {P : Paving K} {t : Nat} {path : List Bool} : (P.leaves t path).Nodup := by
  induction P generalizing path with
  | leaf b v => simp [leaves]
  | node b v l r ihl ihr =>
    simp only [leaves]
    refine List.Nodup.append ihl ihr ?_
    intro p h1 h2
    obtain ⟨q1, e1⟩ := leaves_path p h1
    obtain ⟨q2, e2⟩ := leaves_path p h2
    rw [e1] at e2
    simp at e2

theorem firstLeaf_eq {P : Paving K} {val : SetValue} {flags : List (Leaf K)} {t : Nat} {path : List Bool} :
    P.firstLeaf val flags t path = ((P.leaves t path).filter fun p => p.value.meets val).find? fun p => !flags.contains p := by
  induction P generalizing path with
  | leaf b v =>
    simp only [firstLeaf, leaves]
    cases h1 : SetValue.meets v val with
    | false => simp [h1]
    | true =>
      cases h2 : flags.contains ⟨t, path, b, v⟩ with
      | false =>
        simp only [List.filter_cons, h1, if_true, List.filter_nil, List.find?_cons, h2]
        simp
      | true =>
        simp only [List.filter_cons, h1, if_true, List.filter_nil, List.find?_cons, h2]
        simp
  | node b v l r ihl ihr =>
    simp only [firstLeaf, leaves, List.filter_append, List.find?_append, ihl, ihr]

/-- two boxes of the same dimension have an empty intersection exactly when they have no common point -/
theorem inter_isEmpty_iff {X Y : Box K} (hX : X ≠ []) (hl : X.length = Y.length) :
    (Box.inter X Y).isEmpty = false ↔ ∃ v, InBox v X ∧ InBox v Y := by
  constructor
  · intro h
    have hne : ∀ I ∈ Box.inter X Y, I ≠ ⊥ := by
      have he : (X.setEmpty).isEmpty = true := by
        cases X with
        | nil => exact absurd rfl hX
        | cons I X => simp [Box.setEmpty, Box.empty, List.replicate_succ, Box.isEmpty]
      unfold Box.inter at h ⊢
      split at h
      · rw [he] at h; cases h
      · split at h
        · rw [he] at h; cases h
        · rename_i h1 h2
          rw [if_neg h1, if_neg h2]
          intro I hI hb
          exact h2 (List.any_eq_true.mpr ⟨I, hI, by rw [hb]; rfl⟩)
    obtain ⟨v, hv⟩ := exists_inBox hne
    exact ⟨v, (inBox_inter hl).mp hv⟩
  · rintro ⟨v, hv⟩
    exact ((inBox_inter hl).mpr hv).not_isEmpty

theorem intersecting_eq {n : Nat} (hn : 0 < n) {P : Paving K} (h : P.WF n) {val : SetValue} {b : Box K} (hb : b.length = n)
    {t : Nat} {path : List Bool} :
    P.intersecting val b t path =
      ((P.leaves t path).filter fun p => p.value.meets val).filter fun p => !(Box.inter b p.box).isEmpty := by
  have hbne : b ≠ [] := by rintro rfl; simp at hb; omega
  induction P generalizing path with
  | leaf b' v =>
    simp only [intersecting, leaves, List.filter_cons, List.filter_nil]
    cases h1 : SetValue.meets v val with
    | false => simp
    | true =>
      cases h2 : (Box.inter b b').isEmpty with
      | false => simp [h2]
      | true => simp [h2]
  | node b' v l r ihl ihr =>
    have hW := h
    obtain ⟨h0, h1, h2, h3, h4⟩ := h
    simp only [intersecting, ihl h3, ihr h4]
    cases he : (Box.inter b b').isEmpty with
    | false => simp [leaves, List.filter_append]
    | true =>
      rw [if_pos rfl]
      symm
      rw [List.filter_eq_nil_iff]
      intro p hp
      have hp' := (List.mem_filter.mp hp).1
      have hle : BoxLe p.box b' := hW.leaf_le p hp'
      simp only [Bool.not_eq_true, Bool.not_eq_false']
      by_contra hno
      simp only [Bool.not_eq_true] at hno
      obtain ⟨w, hw1, hw2⟩ := (inter_isEmpty_iff hbne (by rw [hb, hle.length, h0])).mp hno
      have := (inter_isEmpty_iff hbne (by rw [hb, h0])).mpr ⟨w, hw1, hw2.of_le hle⟩
      rw [he] at this; cases this

end Paving

/-! ### The search for connected subsets, on a list of nodes -/

namespace Paving

variable {K : Type*} [Field K] [LinearOrder K] [IsStrictOrderedRing K]

theorem filter_count {α : Type*} [DecidableEq α] (sel nb G : List α) (P : α → Bool)
    (h : ∀ x ∈ sel, P x = true → x ∉ G → x ∈ nb) :
    (sel.filter fun x => !(nb ++ G).contains x).length + (sel.filter fun x => P x && !G.contains x).length ≤
      (sel.filter fun x => !G.contains x).length := by
  induction sel with
  | nil => simp
  | cons a sel ih =>
    have ih := ih fun x hx => h x (List.mem_cons_of_mem _ hx)
    have ha := h a (by simp)
    simp only [List.filter_cons, List.contains_eq_mem, List.mem_append, Bool.not_eq_eq_eq_not, Bool.not_true,
      decide_eq_false_iff_not, Bool.and_eq_true] at ih ⊢
    by_cases h1 : a ∈ G
    · simpa [h1] using ih
    · by_cases h2 : P a = true
      · have h3 := ha h2 h1
        simp [h1, h2, h3] at ih ⊢
        omega
      · by_cases h3 : a ∈ nb
        · simp [h1, h2, h3] at ih ⊢
          omega
        · simp [h1, h2, h3] at ih ⊢
          omega

variable {val : SetValue} {tree : Nat} {root : Paving K} {sel : List (Leaf K)} {adj : Leaf K → Leaf K → Bool}

/-- adjacency in the selected leaves -/
def Adj (sel : List (Leaf K)) (adj : Leaf K → Leaf K → Bool) (a b : Leaf K) : Prop := a ∈ sel ∧ b ∈ sel ∧ adj a b = true

/-- invariant of the inner loop: `F` the flags before the search, `p` its starting leaf -/
structure GrowInv (sel : List (Leaf K)) (adj : Leaf K → Leaf K → Bool) (F : List (Leaf K)) (p : Leaf K)
    (l items G : List (Leaf K)) : Prop where
  nodup : (items ++ l).Nodup
  sub : ∀ x ∈ items ++ l, x ∈ sel
  fresh : ∀ x ∈ items ++ l, x ∉ F
  flags : ∀ x, x ∈ G ↔ x ∈ F ∨ x ∈ items ++ l
  closed : ∀ x ∈ items, ∀ y ∈ sel, adj x y = true → y ∈ G
  conn : ∀ x ∈ items ++ l, Relation.ReflTransGen (Adj sel adj) p x
  start : p ∈ items ++ l

/-- one step of the loop preserves the invariant; the first step (`p` not flagged yet) establishes it -/
theorem growInv_step {F l items G : List (Leaf K)} {p e : Leaf K} (hsel : sel.Nodup)
    (nodup : (items ++ e :: l).Nodup) (sub : ∀ x ∈ items ++ e :: l, x ∈ sel) (fresh : ∀ x ∈ items ++ e :: l, x ∉ F)
    (flags : ∀ x, x ∈ e :: G ↔ x ∈ F ∨ x ∈ items ++ e :: l) (closed : ∀ x ∈ items, ∀ y ∈ sel, adj x y = true → y ∈ e :: G)
    (conn : ∀ x ∈ items ++ e :: l, Relation.ReflTransGen (Adj sel adj) p x) (start : p ∈ items ++ e :: l) :
    let nb := sel.filter fun q => q != e && adj e q && !(e :: G).contains q
    GrowInv sel adj F p (l ++ nb) (items ++ [e]) (nb ++ e :: G) := by
  intro nb
  have hre : items ++ [e] ++ (l ++ nb) = (items ++ e :: l) ++ nb := by simp
  have hnb : ∀ x ∈ nb, x ∈ sel ∧ adj e x = true ∧ x ∉ e :: G := by
    intro x hx
    obtain ⟨h1, h2⟩ := List.mem_filter.mp hx
    simp only [Bool.and_eq_true, List.contains_eq_mem, Bool.not_eq_eq_eq_not, Bool.not_true, decide_eq_false_iff_not] at h2
    exact ⟨h1, h2.1.2, h2.2⟩
  have he : e ∈ items ++ e :: l := by simp
  refine ⟨?_, ?_, ?_, ?_, ?_, ?_, ?_⟩
  · rw [hre]
    refine List.Nodup.append nodup (hsel.filter _) ?_
    intro x h1 h2
    exact (hnb x h2).2.2 ((flags x).mpr (.inr h1))
  · rw [hre]
    intro x hx
    rcases List.mem_append.mp hx with hx | hx
    · exact sub x hx
    · exact (hnb x hx).1
  · rw [hre]
    intro x hx hF
    rcases List.mem_append.mp hx with hx | hx
    · exact fresh x hx hF
    · exact (hnb x hx).2.2 ((flags x).mpr (.inl hF))
  · intro x
    rw [hre, List.mem_append, flags x, List.mem_append (s := items ++ e :: l)]
    tauto
  · intro x hx y hy hxy
    rcases List.mem_append.mp hx with hx | hx
    · exact List.mem_append_right _ (closed x hx y hy hxy)
    · simp only [List.mem_cons, List.not_mem_nil, or_false] at hx
      subst hx
      by_cases hyG : y ∈ x :: G
      · exact List.mem_append_right _ hyG
      · refine List.mem_append_left _ (List.mem_filter.mpr ⟨hy, ?_⟩)
        have hne : y ≠ x := by rintro rfl; exact hyG (by simp)
        simp only [Bool.and_eq_true, List.contains_eq_mem, Bool.not_eq_eq_eq_not, Bool.not_true, decide_eq_false_iff_not,
          bne_iff_ne, ne_eq]
        exact ⟨⟨hne, hxy⟩, hyG⟩
  · rw [hre]
    intro x hx
    rcases List.mem_append.mp hx with hx | hx
    · exact conn x hx
    · obtain ⟨h1, h2, _⟩ := hnb x hx
      exact (conn e he).tail ⟨sub e he, h1, h2⟩
  · rw [hre]; exact List.mem_append_left _ start

theorem grow_spec (hsel : sel.Nodup)
    (hN : ∀ flags, ∀ e ∈ sel, root.neighbours val flags tree e = sel.filter fun q => q != e && adj e q && !flags.contains q)
    {F : List (Leaf K)} {p : Leaf K} {fuel : Nat} {l items G : List (Leaf K)} (h : GrowInv sel adj F p l items G)
    (hf : (sel.filter fun x => !G.contains x).length + l.length ≤ fuel) :
    ∃ items' G', grow val tree root fuel l items G = some (items', G') ∧ GrowInv sel adj F p [] items' G' := by
  induction fuel generalizing l items G with
  | zero =>
    cases l with
    | nil => exact ⟨items, G, rfl, h⟩
    | cons e l => simp at hf
  | succ n ih =>
    cases l with
    | nil => exact ⟨items, G, rfl, h⟩
    | cons e l =>
      have he : e ∈ items ++ e :: l := by simp
      have heG : e ∈ G := (h.flags e).mpr (.inr he)
      have hcons : ∀ x, x ∈ e :: G ↔ x ∈ G := by
        intro x; simp only [List.mem_cons]; constructor
        · rintro (rfl | hx); exacts [heG, hx]
        · exact .inr
      rw [grow]
      rw [hN _ e (h.sub e he)]
      refine ih (growInv_step hsel h.nodup h.sub h.fresh (fun x => (hcons x).trans (h.flags x))
        (fun x hx y hy hxy => (hcons y).mpr (h.closed x hx y hy hxy)) h.conn h.start) ?_
      have hc := filter_count sel (sel.filter fun q => q != e && adj e q && !(e :: G).contains q) (e :: G)
        (fun q => q != e && adj e q) (fun x hx hP hxG => List.mem_filter.mpr ⟨hx, by
          simp only [Bool.and_eq_true] at hP ⊢
          exact ⟨hP, by simpa using hxG⟩⟩)
      have hsame : (sel.filter fun x => !(e :: G).contains x) = sel.filter fun x => !G.contains x := by
        refine List.filter_congr fun x _ => ?_
        simp only [List.contains_eq_mem]
        rw [decide_eq_decide.mpr (hcons x)]
      rw [hsame] at hc
      simp only [List.length_append, List.length_cons] at hf ⊢
      omega

/-- the search from a leaf which is not flagged -/
theorem grow_first (hsel : sel.Nodup)
    (hN : ∀ flags, ∀ e ∈ sel, root.neighbours val flags tree e = sel.filter fun q => q != e && adj e q && !flags.contains q)
    {F : List (Leaf K)} {p : Leaf K} {fuel : Nat} (hp : p ∈ sel) (hpF : p ∉ F) (hf : sel.length + 1 ≤ fuel) :
    ∃ items G, grow val tree root fuel [p] [] F = some (items, G) ∧ GrowInv sel adj F p [] items G := by
  obtain ⟨n, rfl⟩ := Nat.exists_eq_add_of_le' hf
  rw [show n + (sel.length + 1) = (n + sel.length) + 1 by omega, grow]
  rw [hN _ p hp]
  have hinv := growInv_step (l := []) (items := []) (G := F) (F := F) (p := p) (e := p) (adj := adj) hsel (by simp)
    (by simpa using hp) (by simpa using hpF) (by intro x; simp [or_comm]) (by simp) (by
      intro x hx
      simp only [List.nil_append, List.mem_cons, List.not_mem_nil, or_false] at hx
      subst hx; exact .refl) (by simp)
  refine grow_spec hsel hN hinv ?_
  have hc := filter_count sel (sel.filter fun q => q != p && adj p q && !(p :: F).contains q) (p :: F)
    (fun q => q != p && adj p q) (fun x hx hP hxG => List.mem_filter.mpr ⟨hx, by
      simp only [Bool.and_eq_true] at hP ⊢
      exact ⟨hP, by simpa using hxG⟩⟩)
  have := List.length_filter_le (fun x => !(p :: F).contains x) sel
  simp only [List.nil_append] at hc ⊢
  omega

/-- invariant of the outer loop -/
structure SubsetsInv (sel : List (Leaf K)) (adj : Leaf K → Leaf K → Bool) (F : List (Leaf K)) (acc : List (List (Leaf K))) : Prop where
  nodup : acc.flatten.Nodup
  sub : ∀ x ∈ acc.flatten, x ∈ sel
  flags : ∀ x ∈ sel, x ∈ F ↔ x ∈ acc.flatten
  closed : ∀ x ∈ acc.flatten, ∀ y ∈ sel, adj x y = true → y ∈ acc.flatten
  conn : ∀ s ∈ acc, ∀ a ∈ s, ∀ b ∈ s, Relation.ReflTransGen (Adj sel adj) a b
  ne : ∀ s ∈ acc, s ≠ []
  apart : acc.Pairwise fun s t => ∀ a ∈ s, ∀ b ∈ t, adj a b = false

theorem subsets_spec (hsel : sel.Nodup) (hsym : ∀ a ∈ sel, ∀ b ∈ sel, adj a b = adj b a)
    (hN : ∀ flags, ∀ e ∈ sel, root.neighbours val flags tree e = sel.filter fun q => q != e && adj e q && !flags.contains q)
    {stree : Nat} {path : List Bool} {self : Paving K}
    (hF : ∀ flags, self.firstLeaf val flags stree path = sel.find? fun p => !flags.contains p)
    {fuel : Nat} (hfuel : sel.length + 1 ≤ fuel) {n : Nat} {F : List (Leaf K)} {acc : List (List (Leaf K))}
    (h : SubsetsInv sel adj F acc) (hn : (sel.filter fun x => !F.contains x).length + 1 ≤ n) :
    ∃ F' R, subsets fuel val stree path self tree root n F acc = some R ∧ SubsetsInv sel adj F' R ∧ ∀ x ∈ sel, x ∈ R.flatten := by
  induction n generalizing F acc with
  | zero => omega
  | succ n ih =>
    rw [subsets, hF]
    cases hfind : sel.find? fun p => !F.contains p with
    | none =>
      refine ⟨F, acc, rfl, h, fun x hx => ?_⟩
      rw [List.find?_eq_none] at hfind
      have := hfind x hx
      simp only [List.contains_eq_mem, Bool.not_eq_eq_eq_not, Bool.not_true, decide_eq_false_iff_not, not_not] at this
      exact (h.flags x hx).mp this
    | some p =>
      have hp : p ∈ sel := List.mem_of_find?_eq_some hfind
      have hpF : p ∉ F := by
        have := List.find?_some hfind
        simpa using this
      obtain ⟨items, G, hg, hi⟩ := grow_first (adj := adj) hsel hN hp hpF hfuel
      simp only [hg, Option.bind_some]
      have hi0 : items ++ [] = items := List.append_nil _
      have hnew : ∀ x ∈ items, x ∉ acc.flatten := fun x hx hin =>
        hi.fresh x (by simpa using hx) ((h.flags x (h.sub x hin)).mpr hin)
      have hfl : (acc ++ [items]).flatten = acc.flatten ++ items := by simp
      refine ih (F := G) (acc := acc ++ [items]) ⟨?_, ?_, ?_, ?_, ?_, ?_, ?_⟩ ?_
      · rw [hfl]
        refine List.Nodup.append h.nodup (by simpa using hi.nodup) fun x h1 h2 => hnew x h2 h1
      · rw [hfl]
        intro x hx
        rcases List.mem_append.mp hx with hx | hx
        · exact h.sub x hx
        · exact hi.sub x (by simpa using hx)
      · rw [hfl]
        intro x hx
        rw [hi.flags x, h.flags x hx, hi0, List.mem_append]
      · rw [hfl]
        intro x hx y hy hxy
        rcases List.mem_append.mp hx with hx | hx
        · exact List.mem_append_left _ (h.closed x hx y hy hxy)
        · have := (hi.flags y).mp (hi.closed x hx y hy hxy)
          rw [hi0, h.flags y hy] at this
          exact List.mem_append.mpr this
      · intro s hs a ha b hb
        rcases List.mem_append.mp hs with hs | hs
        · exact h.conn s hs a ha b hb
        · simp only [List.mem_cons, List.not_mem_nil, or_false] at hs
          subst hs
          have hca := hi.conn a (by simpa using ha)
          have hcb := hi.conn b (by simpa using hb)
          have hrev : Relation.ReflTransGen (Adj sel adj) a p := by
            clear hcb ha
            induction hca with
            | refl => exact .refl
            | tail _ hxy ih' =>
              obtain ⟨h1, h2, h3⟩ := hxy
              exact .head ⟨h2, h1, by rw [← hsym _ h1 _ h2]; exact h3⟩ ih'
          exact hrev.trans hcb
      · intro s hs
        rcases List.mem_append.mp hs with hs | hs
        · exact h.ne s hs
        · simp only [List.mem_cons, List.not_mem_nil, or_false] at hs
          subst hs
          have := hi.start
          rw [hi0] at this
          exact List.ne_nil_of_mem this
      · refine List.pairwise_append.mpr ⟨h.apart, by simp, ?_⟩
        intro s hs t ht a ha b hb
        simp only [List.mem_cons, List.not_mem_nil, or_false] at ht
        subst ht
        by_contra hab
        simp only [Bool.not_eq_false] at hab
        have ha' : a ∈ acc.flatten := List.mem_flatten.mpr ⟨s, hs, ha⟩
        exact hnew b hb (h.closed a ha' b (hi.sub b (by simpa using hb)) hab)
      · -- the starting leaf is newly flagged
        have hlt : (sel.filter fun x => !G.contains x).length < (sel.filter fun x => !F.contains x).length := by
          have hsub : ∀ x, x ∈ F → x ∈ G := fun x hx => (hi.flags x).mpr (.inl hx)
          have hpG : p ∈ G := (hi.flags p).mpr (.inr hi.start)
          have hlen : ∀ (m : List (Leaf K)), p ∈ m → (m.filter fun x => !G.contains x).length < (m.filter fun x => !F.contains x).length := by
            intro m hm
            have hle : ∀ (m : List (Leaf K)), (m.filter fun x => !G.contains x).length ≤ (m.filter fun x => !F.contains x).length := by
              intro m
              refine List.Sublist.length_le (List.monotone_filter_right m fun x hx => ?_)
              simp only [List.contains_eq_mem, Bool.not_eq_eq_eq_not, Bool.not_true, decide_eq_false_iff_not] at hx ⊢
              exact fun h => hx (hsub x h)
            obtain ⟨m1, m2, rfl⟩ := List.append_of_mem hm
            have e1 := hle m1
            have e2 := hle m2
            have c1 : G.contains p = true := by simpa using hpG
            have c2 : F.contains p = false := by simpa using hpF
            simp only [List.filter_append, List.filter_cons, c1, c2, List.length_append, Bool.not_true, Bool.not_false,
              Bool.false_eq_true, if_false, if_true, List.length_cons]
            omega
          exact hlen sel hp
        omega

end Paving
end Codac
