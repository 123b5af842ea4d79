import Verif.Spec.Format

/-! # What `formatRe` matches -/

namespace Log4g
open Spec

/-- The format of a verb, and what follows its closing brace. -/
def scanSpec : Str → Option (Str × Str)
  | [] => none
  | c :: cs =>
    if c ≠ '\\' ∧ cs.head? = some '}' then some ([c], cs.tail)
    else if c ≠ '\n' then (scanSpec cs).map fun x => (c :: x.1, x.2) else none

/-- The verb at the start of the input, and what follows it. -/
def matchVerb : Str → Option (Str × Option Str × Str)
  | '%' :: '{' :: t =>
    if t.takeWhile isAlnum = [] then none
    else match t.dropWhile isAlnum with
      | '}' :: r => some (t.takeWhile isAlnum, none, r)
      | ':' :: u => (scanSpec u).map fun x => (t.takeWhile isAlnum, some x.1, x.2)
      | _ => none
  | _ => none

theorem head?_flatMap {α β : Type} (l : List α) (f : α → List β) : (l.flatMap f).head? = l.findSome? fun x => (f x).head? := by
  induction l with
  | nil => rfl
  | cons a l ih =>
    rw [List.flatMap_cons, List.findSome?_cons]
    cases h : f a with
    | nil => simpa using ih
    | cons b bs => simp

theorem findSome?_flatMap {α β γ : Type} (l : List α) (f : α → List β) (g : β → Option γ) :
    (l.flatMap f).findSome? g = l.findSome? fun x => (f x).findSome? g := by
  induction l with
  | nil => rfl
  | cons a l ih =>
    rw [List.flatMap_cons, List.findSome?_append, List.findSome?_cons, ih]
    cases (f a).findSome? g <;> rfl

theorem greedy_first {β : Type} (p : Char → Bool) (g : Nat × Str → Option β) (hg : ∀ q c cs, p c = true → g (q, c :: cs) = none)
    (pos : Nat) (s : Str) : (greedyRuns p pos s).findSome? g =
      if s.takeWhile p = [] then none else g (pos + (s.takeWhile p).length, s.dropWhile p) := by
  induction s generalizing pos with
  | nil => rfl
  | cons c cs ih =>
    simp only [greedyRuns]
    by_cases hc : p c = true
    · rw [if_pos hc, List.findSome?_append, ih]
      simp only [List.takeWhile_cons, hc, if_true, List.dropWhile_cons, List.length_cons]
      simp only [reduceCtorEq, if_false]
      by_cases h : cs.takeWhile p = []
      · simp only [h, if_true, Option.none_or, List.findSome?_cons, List.findSome?_nil, List.length_nil, Nat.zero_add]
        have : cs.dropWhile p = cs := by
          cases cs with
          | nil => rfl
          | cons d ds =>
            by_cases hd : p d = true
            · simp [List.takeWhile_cons, hd] at h
            · simp [List.dropWhile_cons, hd]
        rw [this]; cases g (pos + 1, cs) <;> rfl
      · simp only [h, if_false]
        have hz : [(pos + 1, cs)].findSome? g = none := by
          cases cs with
          | nil => simp at h
          | cons d ds =>
            by_cases hd : p d = true
            · simp [hg _ d ds hd]
            · simp [List.takeWhile_cons, hd] at h
        rw [hz, Option.or_none, show pos + 1 + (cs.takeWhile p).length = pos + ((cs.takeWhile p).length + 1) by omega]
    · simp [hc, List.takeWhile_cons]

/-- The groups of a match. -/
def capsOf (pos : Nat) (name : Str) : Option Str → Map Nat (Nat × Nat)
  | none => [(1, (pos + 2, pos + 2 + name.length))]
  | some sp => [(1, (pos + 2, pos + 2 + name.length)), (2, (pos + 2 + name.length + 1, pos + 2 + name.length + 1 + sp.length))]

/-- What is behind the name in `formatRe`. -/
def reTail : Re := .seq (.opt (.seq (.chr ':') (.group 2 (.seq (.lazyStar (· ≠ '\n')) (.cls (· ≠ '\\')))))) (.chr '}')

theorem lazy_first (start pos : Nat) (s : Str) (caps : Map Nat (Nat × Nat)) :
    (lazyRuns (· ≠ '\n') pos s).findSome? (fun x =>
      (match x.2 with
        | [] => none
        | c :: cs => if c ≠ '\\' then (match cs with
            | [] => none
            | d :: ds => if d = '}' then some (⟨x.1 + 1 + 1, ds, Map.set caps 2 (start, x.1 + 1)⟩ : MState) else none) else none)) =
    (scanSpec s).map fun x => ⟨pos + x.1.length + 1, x.2, Map.set caps 2 (start, pos + x.1.length)⟩ := by
  induction s generalizing pos with
  | nil => rfl
  | cons c cs ih =>
    simp only [lazyRuns, List.findSome?_cons, scanSpec]
    by_cases h1 : c = '\\'
    · subst h1
      simp only [ne_eq, not_true_eq_false, if_false, false_and]
      simp only [show ¬ ('\\' = '\n') by decide, not_false_eq_true, decide_true, if_true]
      have := ih (pos + 1)
      simp only [ne_eq] at this
      rw [this]
      cases scanSpec cs with
      | none => rfl
      | some x => simp only [Option.map_some, List.length_cons]; congr 2 <;> (first | omega | (congr 2; omega))
    · cases cs with
      | nil => by_cases h2 : c = '\n' <;> simp [h1, h2, lazyRuns, scanSpec]
      | cons d ds =>
        by_cases hd : d = '}'
        · subst hd; simp [h1]
        · simp only [ne_eq, h1, not_false_eq_true, if_true, hd, if_false, List.head?_cons, Option.some.injEq, and_false]
          by_cases h2 : c = '\n'
          · subst h2; simp
          · simp only [h2, not_false_eq_true, decide_true, if_true]
            have := ih (pos + 1)
            simp only [ne_eq] at this
            rw [this]
            cases scanSpec (d :: ds) with
            | none => rfl
            | some x => simp only [Option.map_some, List.length_cons]; congr 2 <;> (first | omega | (congr 2; omega))

theorem chr_run (c : Char) (st : MState) : (Re.chr c).run st = match st.rest with
    | [] => []
    | d :: ds => if d = c then [{ st with pos := st.pos + 1, rest := ds }] else [] := by
  obtain ⟨pos, rest, caps⟩ := st
  simp only [Re.chr, Re.run]
  cases rest with
  | nil => rfl
  | cons d ds => simp

theorem tail_run (pos : Nat) (s : Str) (caps : Map Nat (Nat × Nat)) (hc : Map.get caps 2 = none) :
    (reTail.run ⟨pos, s, caps⟩).head? = match s with
      | '}' :: r => some ⟨pos + 1, r, caps⟩
      | ':' :: u => (scanSpec u).map fun x => ⟨pos + 1 + x.1.length + 1, x.2, Map.set caps 2 (pos + 1, pos + 1 + x.1.length)⟩
      | _ => none := by
  simp only [reTail, Re.run, chr_run, List.flatMap_append, List.flatMap_cons, List.flatMap_nil, List.append_nil]
  cases s with
  | nil => rfl
  | cons c cs =>
    by_cases h1 : c = ':'
    · subst h1
      simp only [if_true, List.flatMap_cons, List.flatMap_nil, List.append_nil, show ¬ (':' = '}') by decide, if_false, List.append_nil]
      rw [head?_flatMap, List.findSome?_map]
      have := lazy_first (pos + 1) (pos + 1) cs caps
      rw [← this, List.flatMap_map, findSome?_flatMap]
      congr 1
      funext x
      obtain ⟨q, t⟩ := x
      cases t with
      | nil => rfl
      | cons d ds =>
        by_cases hd : d = '\\'
        · subst hd; rfl
        · simp only [ne_eq, hd, not_false_eq_true, decide_true, if_true, List.findSome?_cons, List.findSome?_nil, Function.comp]
          cases ds with
          | nil => rfl
          | cons y ys => by_cases hy : y = '}' <;> simp [chr_run, hy]
    · simp only [h1, if_false, List.flatMap_nil, List.nil_append]
      by_cases h2 : c = '}'
      · subst h2; rfl
      · simp only [h2, if_false, List.head?_nil]
        split
        · rename_i h; injection h with h; exact absurd h h2
        · rename_i h; injection h with h; exact absurd h h1
        · rfl

theorem run_head (pos : Nat) (s : Str) : (formatRe.run ⟨pos, s, []⟩).head? =
    (matchVerb s).map fun x => ⟨pos + (verbText x.1 x.2.1).length, x.2.2, capsOf pos x.1 x.2.1⟩ := by
  have e : formatRe = .seq (.chr '%') (.seq (.chr '{') (.seq (.group 1 (.plus isAlnum)) reTail)) := rfl
  rw [e]
  match s with
  | [] => rfl
  | c :: cs =>
    by_cases h1 : c = '%'
    · subst h1
      match cs with
      | [] => rfl
      | d :: t =>
        by_cases h2 : d = '{'
        · subst h2
          simp only [Re.run, chr_run, if_true, List.flatMap_cons, List.flatMap_nil, List.append_nil]
          rw [List.flatMap_map, List.flatMap_map, head?_flatMap, greedy_first]
          · simp only [matchVerb]
            by_cases h : t.takeWhile isAlnum = []
            · simp [h]
            · simp only [h, if_false]
              rw [tail_run _ _ _ (by rfl)]
              split
              · rename_i h2; simp [capsOf, verbText, h2, Map.set]; omega
              · rename_i h2
                simp only [h2, Option.map_map]
                congr 1; funext x
                simp [capsOf, verbText, Map.set]; omega
              · rename_i h2 h3
                split
                · rename_i h4; exact absurd h4 (h2 _)
                · rename_i h4; exact absurd h4 (h3 _)
                · rfl
          · intro q c cs hc
            rw [tail_run _ _ _ (by rfl)]
            split
            · rename_i h; simp only [List.cons.injEq] at h; rw [h.1] at hc; exact absurd hc (by decide)
            · rename_i h; simp only [List.cons.injEq] at h; rw [h.1] at hc; exact absurd hc (by decide)
            · rfl
        · simp [Re.run, chr_run, h2, matchVerb]
    · simp [Re.run, chr_run, h1, matchVerb]

end Log4g
