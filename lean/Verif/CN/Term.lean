import Verif.CN.Sound
import Mathlib.Order.WellFounded
import Mathlib.Data.Prod.Lex
import Mathlib.Data.List.Count

set_option linter.unusedSectionVars false

/-!
# The propagation ends, and an emptied domain triggers
-/

namespace Codac.CN

variable {D C M W : Type*} [DecidableEq D] [DecidableEq C] [DecidableEq W]

theorem countP_lt {α : Type*} {p q : α → Bool} {l : List α} (h : ∀ a, p a = true → q a = true) {a : α} (ha : a ∈ l)
    (hp : p a = false) (hq : q a = true) : l.countP p < l.countP q := by
  induction l with
  | nil => simp at ha
  | cons b l ih =>
    have hle : l.countP p ≤ l.countP q := List.countP_mono_left fun a _ => h a
    rw [List.countP_cons, List.countP_cons]
    rcases List.mem_cons.mp ha with rfl | ha
    · rw [hp, hq]; simp; omega
    · have := ih ha
      by_cases hb : p b = true
      · rw [hb, h b hb]; simp; omega
      · rw [Bool.not_eq_true] at hb; rw [hb]; simp only [Bool.false_eq_true, if_false]; split_ifs <;> omega

/-- number of domains whose saved volume is not the current one -/
def stale (G : Graph D C M W) (ds : List D) (s : State D C M W) : Nat :=
  ds.countP fun d => decide (s.saved d ≠ G.vol d s.mem)

theorem triggerOne_stale {G : Graph D C M W} (hdrop : ∀ w, G.drop w w = false) (avoid : Option C) {ds : List D} {d : D}
    (hd : d ∈ ds) (s : State D C M W) :
    stale G ds (triggerOne G avoid s d) < stale G ds s ∨
      (stale G ds (triggerOne G avoid s d) ≤ stale G ds s ∧ (triggerOne G avoid s d).queue = s.queue) := by
  obtain ⟨t1, t2, -, -, -⟩ := triggerOne_spec G avoid s d
  have hmono : ∀ a, decide ((triggerOne G avoid s d).saved a ≠ G.vol a (triggerOne G avoid s d).mem) = true →
      decide (s.saved a ≠ G.vol a s.mem) = true := by
    intro a ha
    rw [t1, t2] at ha
    rw [decide_eq_true_eq] at ha ⊢
    by_cases e : a = d
    · subst e; simp at ha
    · rwa [Function.update_of_ne e] at ha
  by_cases h : G.drop (G.vol d s.mem) (s.saved d) = true
  · left
    have hne : s.saved d ≠ G.vol d s.mem := by
      intro e; rw [e, hdrop] at h; cases h
    refine countP_lt hmono hd ?_ (by simpa using hne)
    rw [t1, t2]; simp
  · right
    refine ⟨List.countP_mono_left fun a _ => hmono a, ?_⟩
    unfold triggerOne
    simp [h]

theorem foldl_triggerOne_stale {G : Graph D C M W} (hdrop : ∀ w, G.drop w w = false) (avoid : Option C) {ds L : List D}
    (hL : ∀ d ∈ L, d ∈ ds) (s : State D C M W) :
    stale G ds (L.foldl (triggerOne G avoid) s) < stale G ds s ∨
      (stale G ds (L.foldl (triggerOne G avoid) s) ≤ stale G ds s ∧ (L.foldl (triggerOne G avoid) s).queue = s.queue) := by
  induction L generalizing s with
  | nil => exact Or.inr ⟨le_rfl, rfl⟩
  | cons d L ih =>
    rw [List.foldl_cons]
    have h1 := triggerOne_stale hdrop avoid (hL d (by simp)) s
    have h2 := ih (fun x hx => hL x (by simp [hx])) (triggerOne G avoid s d)
    rcases h1 with h1 | h1 <;> rcases h2 with h2 | h2
    · left; omega
    · left; omega
    · left; omega
    · right; exact ⟨le_trans h2.1 h1.1, h2.2.trans h1.2⟩

/-- the loop of `contract` ends when the contractors cannot contract for ever -/
theorem steps_terminate {all : List C} {G : Graph D C M W} (hdrop : ∀ w, G.drop w w = false) {ds : List D}
    (hds : ∀ c ∈ all, ∀ d ∈ G.doms c, d ∈ ds ∧ ∀ e ∈ G.comps d, e ∈ ds) (rank : M → Nat)
    (hrank : ∀ c ∈ all, ∀ m, G.apply c m = m ∨ rank (G.apply c m) < rank m) (s : State D C M W) (hq : QInv all G s) :
    ∃ n, (steps G n s).queue = [] := by
  have key : ∀ (k : Nat ×ₗ (Nat ×ₗ Nat)) (s : State D C M W), QInv all G s →
      toLex (rank s.mem, toLex (stale G ds s, s.queue.length)) = k → ∃ n, (steps G n s).queue = [] := by
    intro k
    induction k using WellFoundedLT.induction with
    | ind k ih =>
      intro s hq hk
      by_cases he : s.queue = []
      · exact ⟨0, he⟩
      have hlt : toLex (rank (step G s).mem, toLex (stale G ds (step G s), (step G s).queue.length)) < k := by
        rw [← hk, Prod.Lex.toLex_lt_toLex, Prod.Lex.toLex_lt_toLex]
        rcases hqq : s.queue with _ | ⟨c, q⟩
        · exact absurd hqq he
        have hc : c ∈ all := hq.known c (by rw [hqq]; simp)
        have hm : (step G s).mem = G.apply c s.mem := by
          unfold step; rw [hqq]; dsimp only
          split_ifs
          · rfl
          · rw [foldl_trigger_eq, foldl_triggerOne_mem]
        rcases hrank c hc s.mem with hr | hr
        swap
        · left; rw [hm]; exact hr
        right
        refine ⟨by rw [hm, hr], ?_⟩
        dsimp only
        unfold step; rw [hqq]; dsimp only
        rw [hr]
        split_ifs with hsub
        · right
          refine ⟨rfl, ?_⟩
          simp
        · rw [foldl_trigger_eq]
          have hL : ∀ d ∈ (G.doms c).flatMap (fun d => d :: G.comps d), d ∈ ds := by
            intro d hd
            rw [List.mem_flatMap] at hd
            obtain ⟨e, he, hd⟩ := hd
            rcases List.mem_cons.mp hd with rfl | hd
            · exact (hds c hc _ he).1
            · exact (hds c hc e he).2 d hd
          have := foldl_triggerOne_stale hdrop (some c) hL
            { s with queue := q, active := Function.update s.active c false }
          rcases this with h | ⟨h1, h2⟩
          · exact Or.inl h
          · rcases h1.lt_or_eq with h1 | h1
            · exact Or.inl h1
            · right
              refine ⟨h1, ?_⟩
              rw [h2]; simp
      obtain ⟨n, hn⟩ := ih _ hlt (step G s) (step_qinv hq) rfl
      exact ⟨n + 1, hn⟩
  exact key _ s hq rfl

/-! ### triggering -/

theorem foldl_triggerOne_active (G : Graph D C M W) (avoid : Option C) {L : List D} {s : State D C M W} {x : C}
    (h : s.active x = true ∨ ∃ d ∈ L, G.drop (G.vol d s.mem) (s.saved d) = true ∧ x ∈ G.ctcs d ∧ some x ≠ avoid) :
    (L.foldl (triggerOne G avoid) s).active x = true := by
  induction L generalizing s with
  | nil => simpa using h
  | cons e L ih =>
    rw [List.foldl_cons]
    obtain ⟨t1, t2, t3, -, -⟩ := triggerOne_spec G avoid s e
    apply ih
    rcases h with h | ⟨d, hd, h1, h2, h3⟩
    · left; rw [t3]; exact Or.inl h
    · by_cases hde : d = e
      · subst hde; left; rw [t3]; exact Or.inr ⟨h1, h2, h3⟩
      · right
        refine ⟨d, (List.mem_cons.mp hd).resolve_left hde, ?_, h2, h3⟩
        rw [t1, t2, Function.update_of_ne hde]; exact h1

/-- the contractors attached to a domain seen as contracted in the iteration are active at its end -/
theorem step_active {G : Graph D C M W} {s : State D C M W} {c : C} {q : List C} (hq : s.queue = c :: q)
    (hk : G.kind c ≠ .subnet) {d : D} (hd : d ∈ G.doms c)
    (h : G.drop (G.vol d (G.apply c s.mem)) (s.saved d) = true) {x : C} (hx : x ∈ G.ctcs d) (hxc : x ≠ c) :
    (step G s).active x = true := by
  unfold step
  rw [hq]
  dsimp only
  rw [if_neg hk, foldl_trigger_eq]
  apply foldl_triggerOne_active
  right
  refine ⟨d, List.mem_flatMap.mpr ⟨d, hd, by simp⟩, h, hx, by simpa using hxc⟩

end Codac.CN
