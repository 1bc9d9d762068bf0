import Verif.Traj.FunText

/-!
# C132 — texts of functions: sub-expressions, names of arguments, text given to CAPD

Specification: `joined sep l`, the texts of the list `l` separated by `sep`; `noEdge`, a text without a space at its ends; `fields sep s`, the texts between the
separators of `s`.
-/

namespace Codac.Props
open Codac.FunText

/-- the texts of a list, separated by a character -/
def joined (sep : Char) : List (List Char) → List Char
  | [] => []
  | [c] => c
  | c :: d :: l => c ++ sep :: joined sep (d :: l)

/-- the texts between the separators -/
def fields (sep : Char) : List Char → List (List Char)
  | [] => [[]]
  | c :: s =>
    if c = sep then [] :: fields sep s
    else
      match fields sep s with
      | [] => [[c]]
      | f :: l => (c :: f) :: l

/-- the text of a function of `R^n`: the components between brackets, separated by semicolons, with spaces around -/
def vectorText (before after : List Char) (comps : List (List Char)) : List Char := before ++ ('(' :: joined ';' comps ++ [')']) ++ after

/-- `t` is `s` without the spaces at its ends -/
def Trimmed (s t : List Char) : Prop :=
  ∃ a b, s = a ++ t ++ b ∧ (∀ c ∈ a, isSpace c = true) ∧ (∀ c ∈ b, isSpace c = true) ∧ (∀ c, t.head? = some c → isSpace c = false) ∧
    ∀ c, t.getLast? = some c → isSpace c = false

theorem dropWhile_split (p : Char → Bool) (s : List Char) :
    ∃ a, s = a ++ s.dropWhile p ∧ (∀ c ∈ a, p c = true) ∧ ∀ c, (s.dropWhile p).head? = some c → p c = false := by
  induction s with
  | nil => exact ⟨[], rfl, by simp, by simp⟩
  | cons c s ih =>
    by_cases h : p c = true
    · obtain ⟨a, h1, h2, h3⟩ := ih
      rw [List.dropWhile_cons_of_pos h]
      refine ⟨c :: a, by rw [List.cons_append, ← h1], ?_, h3⟩
      intro d hd
      rcases List.mem_cons.mp hd with rfl | hd
      · exact h
      · exact h2 d hd
    · rw [List.dropWhile_cons_of_neg h]
      refine ⟨[], rfl, by simp, ?_⟩
      intro d hd
      simp only [List.head?_cons, Option.some.injEq] at hd
      subst hd
      simpa using h

/-- C132: `Tools::trim` removes the spaces at both ends and nothing else -/
theorem C132_trim (s : List Char) : Trimmed s (trim s) := by
  obtain ⟨a, h1, h2, h3⟩ := dropWhile_split isSpace s
  obtain ⟨b, k1, k2, k3⟩ := dropWhile_split isSpace (s.dropWhile isSpace).reverse
  have e : s.dropWhile isSpace = trim s ++ b.reverse := by
    have := congrArg List.reverse k1
    rw [List.reverse_reverse, List.reverse_append] at this
    exact this
  refine ⟨a, b.reverse, by rw [List.append_assoc, ← e]; exact h1, h2, fun c hc => k2 c (List.mem_reverse.mp hc), ?_, ?_⟩
  · intro c hc
    apply h3
    rw [e]
    cases ht : trim s with
    | nil => rw [ht] at hc; cases hc
    | cons d t => rw [ht] at hc; simpa using hc
  · intro c hc
    apply k3
    unfold trim at hc
    rwa [List.getLast?_reverse] at hc

theorem trim_of_trimmed {s t : List Char} (h : Trimmed s t) (ht : t ≠ []) : trim s = t := by
  obtain ⟨a, b, rfl, ha, hb, h1, h2⟩ := h
  have key : ∀ (a t : List Char), (∀ c ∈ a, isSpace c = true) → t ≠ [] → (∀ c, t.head? = some c → isSpace c = false) → (a ++ t).dropWhile isSpace = t := by
    intro a t ha ht h1
    induction a with
    | nil =>
      cases t with
      | nil => exact absurd rfl ht
      | cons d t => exact List.dropWhile_cons_of_neg (by simpa using h1 d rfl)
    | cons d a ih => rw [List.cons_append, List.dropWhile_cons_of_pos (ha d (by simp))]; exact ih fun c hc => ha c (by simp [hc])
  unfold trim
  rw [List.append_assoc, key a (t ++ b) ha (by simp [ht]) ?_, List.reverse_append, key b.reverse t.reverse ?_ (by simpa using ht) ?_, List.reverse_reverse]
  · intro c hc; exact hb c (List.mem_reverse.mp hc)
  · intro c hc; rw [List.head?_reverse] at hc; exact h2 c hc
  · intro c hc
    cases t with
    | nil => exact absurd rfl ht
    | cons d t => exact h1 c (by simpa using hc)

theorem lines_append {c : List Char} (hc : ';' ∉ c) (acc s : List Char) : lines acc (c ++ s) = lines (acc ++ c) s := by
  induction c generalizing acc with
  | nil => simp
  | cons d c ih =>
    rw [List.cons_append, lines, if_neg (by rintro rfl; exact hc (by simp)), ih (fun h => hc (by simp [h]))]
    simp

theorem lines_joined (comps : List (List Char)) (hne : comps ≠ []) (hs : ∀ c ∈ comps, ';' ∉ c) (acc : List Char) (i : Nat) :
    (lines acc (joined ';' comps ++ [')']))[i]? =
      comps[i]?.map fun c => (if i = 0 then acc else []) ++ c ++ (if i + 1 = comps.length then [')'] else []) := by
  induction comps generalizing acc i with
  | nil => exact absurd rfl hne
  | cons c cs ih =>
    cases cs with
    | nil =>
      rw [joined, lines_append (hs c (by simp)), lines, if_neg (by decide), lines, if_neg (by simp)]
      cases i with
      | zero => simp
      | succ i => simp
    | cons d l =>
      rw [joined, List.append_assoc, lines_append (hs c (by simp)), List.cons_append, lines, if_pos rfl]
      cases i with
      | zero => simp
      | succ i =>
        rw [List.getElem?_cons_succ, List.getElem?_cons_succ, ih (by simp) (fun x hx => hs x (by simp [hx]))]
        cases hg : (d :: l)[i]? with
        | none => rfl
        | some x =>
          simp only [Option.map_some, List.length_cons]
          congr 1
          cases i <;> simp

/-- C132: the `i`-th sub-expression of a function whose text is `(c_0; ... ; c_{n-1})`, without another semicolon, is `c_i` without the spaces around it (missing: the
texts without brackets or with other semicolons, see `C132_scalar_fails` and `C132_nested_fails`) -/
theorem C132_expr_partial {before after : List Char} {comps : List (List Char)} (hb : ∀ c ∈ before, isSpace c = true) (ha : ∀ c ∈ after, isSpace c = true)
    (hs : ∀ c ∈ comps, ';' ∉ c) {f : TFun} (ht : f.text = vectorText before after comps) (hd : f.dim = comps.length) {i : Nat} {c : List Char}
    (hi : comps[i]? = some c) : ∃ r, f.expr i = some r ∧ Trimmed c r := by
  have hlt : i < comps.length := (List.getElem?_eq_some_iff.mp hi).1
  have hne : comps ≠ [] := by rintro rfl; simp at hlt
  have htr : trim f.text = '(' :: joined ';' comps ++ [')'] := by
    rw [ht]
    refine trim_of_trimmed ⟨before, after, rfl, hb, ha, ?_, ?_⟩ (by simp)
    · intro c hc; simp only [List.cons_append, List.head?_cons, Option.some.injEq] at hc; subst hc; decide
    · intro c hc; rw [List.getLast?_append] at hc; simp at hc; subst hc; decide
  have hl := lines_joined comps hne hs ['('] i
  rw [hi, Option.map_some] at hl
  have e0 : lines [] ('(' :: joined ';' comps ++ [')']) = lines ['('] (joined ';' comps ++ [')']) := by
    rw [List.cons_append, lines, if_neg (by decide)]; rfl
  refine ⟨trim c, ?_, C132_trim c⟩
  unfold TFun.expr
  rw [hd, if_pos hlt, htr, e0, hl]
  simp only
  by_cases h0 : i = 0
  · simp only [h0, if_true]
    by_cases h1 : 0 + 1 = comps.length
    · simp [h1]
    · simp [h1]
  · simp only [if_neg h0]
    by_cases h1 : i + 1 = comps.length
    · simp [h1]
    · simp [h1]

/-- C132: the names of the arguments are the ones given, without `t` -/
theorem C132_arg_name {xs : List (List Char)} {dim : Nat} {y : List Char} {f : TFun} (h : construct xs dim y = some f) (i : Nat) : f.argName i = xs[i]? := by
  unfold construct at h
  split at h
  · cases h
  · simp only [Option.some.injEq] at h
    subst h
    unfold TFun.argName
    simp only [List.length_cons, Nat.add_sub_cancel, List.getElem?_cons_succ]
    split
    · rfl
    · rename_i h; rw [List.getElem?_eq_none (by omega)]

theorem fields_joined {sep : Char} : ∀ (l : List (List Char)), l ≠ [] → (∀ c ∈ l, sep ∉ c) → fields sep (joined sep l) = l := by
  have one : ∀ c : List Char, sep ∉ c → fields sep c = [c] := by
    intro c
    induction c with
    | nil => intro _; rfl
    | cons d c ih => intro h; rw [fields, if_neg (by rintro rfl; exact h (by simp)), ih (fun hh => h (by simp [hh]))]
  have app : ∀ (c s : List Char), sep ∉ c → fields sep (c ++ sep :: s) = c :: fields sep s := by
    intro c s
    induction c with
    | nil => intro _; rw [List.nil_append, fields, if_pos rfl]
    | cons d c ih => intro h; rw [List.cons_append, fields, if_neg (by rintro rfl; exact h (by simp)), ih (fun hh => h (by simp [hh]))]
  intro l
  induction l with
  | nil => intro h; exact absurd rfl h
  | cons c l ih =>
    intro _ h
    cases l with
    | nil => exact one c (h c (by simp))
    | cons d l => rw [joined, app c _ (h c (by simp)), ih (by simp) (fun x hx => h x (by simp [hx]))]

theorem capdVars_eq (args : List (List Char)) (n : Nat) : ∀ (k i : Nat), i + k = args.length → n = args.length →
    (∀ a, args.getLast? = some a → a ≠ ['t']) → capdVars args n k i = some (joined ',' ((args.drop i).filter (fun a => decide (a ≠ ['t'])))) := by
  intro k
  induction k with
  | zero => intro i h _ _; rw [List.drop_eq_nil_of_le (by omega)]; rfl
  | succ k ih =>
    intro i h hn hl
    have hi : i < args.length := by omega
    have hd : args.drop i = args[i] :: args.drop (i + 1) := List.drop_eq_getElem_cons hi
    rw [capdVars, List.getElem?_eq_getElem hi, ih (i + 1) (by omega) hn hl, hd]
    simp only [Option.some.injEq]
    by_cases hlast : i = n - 1
    · have : args.drop (i + 1) = [] := List.drop_eq_nil_of_le (by omega)
      have ht : args[i] ≠ ['t'] := by
        apply hl
        rw [List.getLast?_eq_getElem?, show args.length - 1 = i by omega, List.getElem?_eq_getElem hi]
      rw [if_pos ht, if_pos hlast, this, List.filter_cons_of_pos (by simpa using ht)]
      simp [joined]
    · rw [if_neg hlast]
      have hne : (args.drop (i + 1)).filter (fun a => decide (a ≠ ['t'])) ≠ [] := by
        intro hnil
        rw [List.filter_eq_nil_iff] at hnil
        have hlt : args.length - 1 < args.length := by omega
        have hmem : args[args.length - 1] ∈ args.drop (i + 1) := by
          rw [List.mem_iff_getElem?]
          exact ⟨args.length - 1 - (i + 1), by rw [List.getElem?_drop, show i + 1 + (args.length - 1 - (i + 1)) = args.length - 1 by omega, List.getElem?_eq_getElem hlt]⟩
        have h1 := hnil _ hmem
        have h2 := hl _ (by rw [List.getLast?_eq_getElem?, List.getElem?_eq_getElem hlt])
        simp only [decide_eq_true_eq, not_not] at h1
        exact h2 h1
      by_cases ht : args[i] ≠ ['t']
      · rw [if_pos ht, List.filter_cons_of_pos (by simpa using ht)]
        cases hf : (args.drop (i + 1)).filter (fun a => decide (a ≠ ['t'])) with
        | nil => exact absurd hf hne
        | cons d l => simp [joined]
      · rw [if_neg ht, List.filter_cons_of_neg (by simpa using ht)]
        rfl

/-- C132: the text given to CAPD declares the variables other than `t`, in their order (missing: a function whose last argument is `t`, or with a vector
argument, see `C132_last_t_fails` and `C132_vector_fails`) -/
theorem C132_capd_partial {args : List (List Char)} {e : List Char} (hl : ∀ a, args.getLast? = some a → a ≠ ['t']) (hne : args ≠ [])
    (hc : ∀ a ∈ args, ',' ∉ a) :
    ∃ v, capdStr args args.length e = some ("time:t;var:".toList ++ v ++ ";fun:".toList ++ e ++ ";".toList) ∧
      fields ',' v = args.filter (fun a => decide (a ≠ ['t'])) := by
  refine ⟨_, by unfold capdStr; rw [capdVars_eq args args.length args.length 0 (by omega) rfl hl]; rfl, ?_⟩
  rw [List.drop_zero]
  refine fields_joined _ ?_ fun c h => hc c (List.mem_of_mem_filter h)
  intro hnil
  rw [List.filter_eq_nil_iff] at hnil
  have hm := List.getLast_mem hne
  have h1 := hnil _ hm
  simp only [decide_eq_true_eq, not_not] at h1
  exact hl _ (List.getLast?_eq_some_getLast hne) h1

/-- C132: for a `TFunction` of at least one variable the text given to CAPD declares its variables, in their order -/
theorem C132_capd_tfunction {xs : List (List Char)} {dim : Nat} {y e : List Char} {f : TFun} (h : construct xs dim y = some f) (hx : xs ≠ [])
    (hc : ∀ a ∈ xs, ',' ∉ a) :
    ∃ v, capdStr f.args f.args.length e = some ("time:t;var:".toList ++ v ++ ";fun:".toList ++ e ++ ";".toList) ∧ fields ',' v = xs := by
  unfold construct at h
  split at h
  · cases h
  · rename_i hn
    simp only [Option.some.injEq] at h
    subst h
    obtain ⟨v, h1, h2⟩ := C132_capd_partial (args := ['t'] :: xs) (e := e) (by
      intro a ha
      rw [List.getLast?_cons, ] at ha
      rintro rfl
      have : xs.getLast?.getD ['t'] = xs.getLast hx := by rw [List.getLast?_eq_some_getLast hx]; rfl
      rw [this] at ha
      simp only [Option.some.injEq] at ha
      exact hn (ha ▸ List.getLast_mem hx)) (by simp) (by
      intro a ha
      rcases List.mem_cons.mp ha with rfl | ha
      · decide
      · exact hc a ha)
    refine ⟨v, h1, ?_⟩
    rw [h2, List.filter_cons_of_neg (by simp), List.filter_eq_self]
    intro a ha
    simp only [decide_eq_true_eq]
    rintro rfl
    exact hn ha

/-! ## what does not hold -/

/-- C132: a scalar function without brackets loses its first and last characters: the sub-expression 0 of `sin(x)` is `in(x` -/
theorem C132_scalar_fails : TFun.expr ⟨["t".toList, "x".toList], 1, "sin(x)".toList⟩ 0 = some "in(x".toList := by decide

/-- C132: a component with a semicolon shifts the others: the sub-expression 1 of `(x*(1;2)[0];y)` is not `y` -/
theorem C132_nested_fails : TFun.expr ⟨["t".toList, "x".toList, "y".toList], 2, "(x*(1;2)[0];y)".toList⟩ 1 = some "2)[0".toList := by decide

/-- C132: a component `f[i]` keeps the text of the whole function: the only sub-expression of `f[1]`, for `f = (x+y;x-y)`, is `x+` -/
theorem C132_component_fails :
    ∃ g, TFun.comp ⟨["t".toList, "x".toList, "y".toList], 2, "(x+y;x-y)".toList⟩ 1 = some g ∧ g.text = "(x+y;x-y)".toList ∧ g.expr 0 = some "x+".toList :=
  ⟨_, rfl, rfl, by decide⟩

/-- C132: with `t` as the last argument, the text given to CAPD declares a variable without a name -/
theorem C132_last_t_fails : capdStr ["x".toList, "t".toList] 2 "x*t".toList = some "time:t;var:x,;fun:x*t;".toList ∧
    fields ',' "x,".toList = ["x".toList, []] := by decide

/-- C132: with a vector argument there are more variables than names: names are read out of the array -/
theorem C132_vector_fails (e : List Char) : capdStr ["x".toList] 2 e = none := rfl

/-! ## concrete cases -/

example : TFun.expr ⟨["t".toList, "x".toList], 3, " (x+t; 2*x ;sin(x) ) ".toList⟩ 1 = some "2*x".toList ∧
    TFun.expr ⟨["t".toList, "x".toList], 3, " (x+t; 2*x ;sin(x) ) ".toList⟩ 2 = some "sin(x)".toList ∧
    " (x+t; 2*x ;sin(x) ) ".toList = vectorText [' '] [' '] ["x+t".toList, " 2*x ".toList, "sin(x) ".toList] := by decide

example : ∃ f, construct ["x".toList, "y".toList] 2 "(x;y)".toList = some f ∧ f.argName 1 = some "y".toList ∧
    capdStr f.args f.args.length "(x,y)".toList = some "time:t;var:x,y;fun:(x,y);".toList := ⟨_, rfl, by decide, by decide⟩

end Codac.Props
