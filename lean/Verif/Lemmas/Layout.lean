import Verif.Lemmas.Regex

/-! # Layouts: matches, pieces and parts -/

namespace Log4g
open Spec

theorem isAlnum_iff (c : Char) : isAlnum c = true ↔ NameChar c := by
  simp only [isAlnum, NameChar, Bool.or_eq_true, Bool.and_eq_true, decide_eq_true_eq, Char.le_def, UInt32.le_iff_toNat_le]
  have : ('a'.val.toNat = 97 ∧ 'z'.val.toNat = 122) ∧ ('A'.val.toNat = 65 ∧ 'Z'.val.toNat = 90) ∧ ('0'.val.toNat = 48 ∧ '9'.val.toNat = 57) := by decide
  obtain ⟨⟨a, b⟩, ⟨c, d⟩, e, f⟩ := this
  rw [a, b, c, d, e, f]
  simp only [Char.toNat]
  rw [or_assoc]

theorem scanSpec_sound {s sp r : Str} (h : scanSpec s = some (sp, r)) :
    s = sp ++ '}' :: r ∧ ∃ x c, sp = x ++ [c] ∧ '\n' ∉ x ∧ c ≠ '\\' := by
  induction s generalizing sp r with
  | nil => simp [scanSpec] at h
  | cons c cs ih =>
    rw [scanSpec] at h
    split at h
    · rename_i h1
      simp only [Option.some.injEq, Prod.mk.injEq] at h
      obtain ⟨rfl, rfl⟩ := h
      cases cs with
      | nil => simp at h1
      | cons d ds => simp at h1; exact ⟨by simp [h1.2], [], c, rfl, by simp, h1.1⟩
    · split at h
      · rename_i h1 h2
        cases hs : scanSpec cs with
        | none => rw [hs] at h; simp at h
        | some x =>
          rw [hs] at h
          simp only [Option.map_some, Option.some.injEq, Prod.mk.injEq] at h
          obtain ⟨rfl, rfl⟩ := h
          obtain ⟨e, x', c', e', n, b⟩ := ih hs
          refine ⟨by rw [e]; simp, c :: x', c', by rw [e']; simp, ?_, b⟩
          simp only [List.mem_cons, not_or]; exact ⟨fun hh => h2 hh.symm, n⟩
      · simp at h

theorem scanSpec_least {x : Str} {c : Char} {r : Str} (hn : '\n' ∉ x) (hc : c ≠ '\\') :
    ∃ sp r', scanSpec (x ++ [c] ++ '}' :: r) = some (sp, r') ∧ sp.length ≤ (x ++ [c]).length := by
  induction x with
  | nil => exact ⟨[c], r, by simp [scanSpec, hc], by simp⟩
  | cons d x ih =>
    simp only [List.mem_cons, not_or] at hn
    obtain ⟨sp, r', e, hl⟩ := ih hn.2
    simp only [List.cons_append]
    rw [scanSpec]
    split
    · exact ⟨_, _, rfl, by simp⟩
    · rw [if_pos (fun hh => hn.1 hh.symm), e]
      exact ⟨d :: sp, r', rfl, by simp at hl ⊢; omega⟩

theorem mem_takeWhile {p : Char → Bool} {s : Str} {c : Char} (h : c ∈ s.takeWhile p) : p c = true := by
  induction s with
  | nil => simp at h
  | cons a s ih =>
    rw [List.takeWhile_cons] at h
    split at h
    · rename_i ha
      rcases List.mem_cons.mp h with rfl | h
      · exact ha
      · exact ih h
    · simp at h

theorem takeWhile_append_stop {p : Char → Bool} {n : Str} {c : Char} {r : Str} (hn : ∀ x ∈ n, p x = true) (hc : p c = false) :
    (n ++ c :: r).takeWhile p = n ∧ (n ++ c :: r).dropWhile p = c :: r := by
  induction n with
  | nil => simp [List.takeWhile_cons, List.dropWhile_cons, hc]
  | cons a n ih =>
    obtain ⟨h1, h2⟩ := ih (fun x hx => hn x (by simp [hx]))
    have ha := hn a (by simp)
    simp [List.takeWhile_cons, List.dropWhile_cons, ha, h1, h2]

theorem matchVerb_sound {s n r : Str} {sp : Option Str} (h : matchVerb s = some (n, sp, r)) :
    s = verbText n sp ++ r ∧ VerbOK n sp := by
  rw [matchVerb.eq_def] at h
  split at h
  · rename_i t
    split at h
    · simp at h
    · rename_i hne
      have hch : ∀ c ∈ t.takeWhile isAlnum, NameChar c := fun c hc => (isAlnum_iff c).mp (mem_takeWhile hc)
      have ht := List.takeWhile_append_dropWhile (p := isAlnum) (l := t)
      split at h
      · rename_i r' hd
        simp only [Option.some.injEq, Prod.mk.injEq] at h
        obtain ⟨rfl, rfl, rfl⟩ := h
        refine ⟨?_, hne, hch, by simp⟩
        rw [hd] at ht
        conv => lhs; rw [← ht]
        simp [verbText]
      · rename_i u hd
        cases hs : scanSpec u with
        | none => rw [hs] at h; simp at h
        | some x =>
          obtain ⟨sp', r'⟩ := x
          rw [hs] at h
          simp only [Option.map_some, Option.some.injEq, Prod.mk.injEq] at h
          obtain ⟨rfl, rfl, rfl⟩ := h
          obtain ⟨e, hx⟩ := scanSpec_sound hs
          refine ⟨?_, hne, hch, ?_⟩
          · rw [hd, e] at ht
            conv => lhs; rw [← ht]
            simp [verbText]
          · intro sp he; injection he with he; subst he; exact hx
      · simp at h
  · simp at h

theorem matchVerb_least {n r : Str} {sp : Option Str} (h : VerbOK n sp) :
    ∃ n' sp' r', matchVerb (verbText n sp ++ r) = some (n', sp', r') ∧ (verbText n' sp').length ≤ (verbText n sp).length := by
  have hn : ∀ x ∈ n, isAlnum x = true := fun x hx => (isAlnum_iff x).mpr (h.chars x hx)
  cases sp with
  | none =>
    obtain ⟨h1, h2⟩ := takeWhile_append_stop (r := r) hn (c := '}') (by decide)
    refine ⟨n, none, r, ?_, Nat.le_refl _⟩
    have : verbText n none ++ r = '%' :: '{' :: (n ++ '}' :: r) := by simp [verbText]
    rw [this, matchVerb, h1, h2]
    simp [h.ne]
  | some sp =>
    obtain ⟨x, c, rfl, hx, hc⟩ := h.spec sp rfl
    obtain ⟨h1, h2⟩ := takeWhile_append_stop (r := x ++ [c] ++ '}' :: r) hn (c := ':') (by decide)
    obtain ⟨sp', r', e, hl⟩ := scanSpec_least (r := r) hx hc
    refine ⟨n, some sp', r', ?_, by simp [verbText] at hl ⊢; omega⟩
    have : verbText n (some (x ++ [c])) ++ r = '%' :: '{' :: (n ++ ':' :: (x ++ [c] ++ '}' :: r)) := by simp [verbText]
    rw [this, matchVerb, h1, h2, if_neg h.ne]
    simp only [e, Option.map_some]

theorem verbText_pos (n : Str) (sp : Option Str) : 0 < (verbText n sp).length := by
  cases sp <;> simp [verbText]

theorem verbAt_drop {s : Str} {k : Nat} {n : Str} {sp : Option Str} (h : VerbAt s k n sp) :
    VerbOK n sp ∧ ∃ r, s.drop k = verbText n sp ++ r := by
  obtain ⟨ok, pre, post, rfl, rfl⟩ := h
  exact ⟨ok, post, by simp⟩

theorem verbAt_of_drop {s : Str} {k : Nat} {n : Str} {sp : Option Str} {r : Str} (ok : VerbOK n sp)
    (h : s.drop k = verbText n sp ++ r) : VerbAt s k n sp := by
  have hk : k ≤ s.length := by
    rcases Nat.le_total k s.length with hk | hk
    · exact hk
    · rw [List.drop_eq_nil_of_le hk] at h
      have := verbText_pos n sp
      have : (verbText n sp ++ r).length = 0 := by rw [← h]; rfl
      simp only [List.length_append] at this; omega
  refine ⟨ok, s.take k, r, ?_, by simp [Nat.min_eq_left hk]⟩
  rw [List.append_assoc, ← h, List.take_append_drop]

theorem no_match {s : Str} (h : matchVerb s = none) (n : Str) (sp : Option Str) : ¬ VerbAt s 0 n sp := by
  intro hv
  obtain ⟨ok, r, e⟩ := verbAt_drop hv
  rw [List.drop_zero] at e
  obtain ⟨_, _, _, e2, _⟩ := matchVerb_least (r := r) ok
  rw [← e, h] at e2; simp at e2

theorem verbAt_shift {a s : Str} {k : Nat} {n : Str} {sp : Option Str} (h : VerbAt (a ++ s) k n sp) (hk : a.length ≤ k) :
    VerbAt s (k - a.length) n sp := by
  obtain ⟨ok, r, e⟩ := verbAt_drop h
  refine verbAt_of_drop (r := r) ok ?_
  rw [← e, List.drop_append, List.drop_eq_nil_of_le hk, List.nil_append]

theorem findAll_skip (re : Re) (skip pos : Nat) (s : Str) : re.findAll skip pos s = re.findAll 0 (pos + skip) (s.drop skip) := by
  induction skip generalizing pos s with
  | zero => rfl
  | succ k ih =>
    cases s with
    | nil => simp [Re.findAll]
    | cons c cs => rw [Re.findAll, ih, List.drop_succ_cons, show pos + 1 + k = pos + (k + 1) by omega]

theorem findAll_none {pos : Nat} {c : Char} {cs : Str} (h : matchVerb (c :: cs) = none) :
    formatRe.findAll 0 pos (c :: cs) = formatRe.findAll 0 (pos + 1) cs := by
  rw [Re.findAll, run_head, h]; rfl

theorem findAll_some {pos : Nat} {s n r : Str} {sp : Option Str} (h : matchVerb s = some (n, sp, r)) :
    formatRe.findAll 0 pos s = ⟨pos, pos + (verbText n sp).length, capsOf pos n sp⟩ ::
      formatRe.findAll 0 (pos + (verbText n sp).length) r := by
  obtain ⟨e, ok⟩ := matchVerb_sound h
  have hp := verbText_pos n sp
  cases hs : s with
  | nil => rw [hs] at e; have := congrArg List.length e; simp at this; omega
  | cons c cs =>
    rw [Re.findAll, run_head, ← hs, h]
    simp only [Option.map_some, List.cons.injEq, true_and]
    rw [findAll_skip]
    congr 1
    · omega
    · have h1 : s.drop (verbText n sp).length = r := by rw [e]; simp
      rw [hs] at h1
      rw [← h1]
      cases hv : (verbText n sp).length with
      | zero => omega
      | succ k => rw [List.drop_succ_cons]; congr 1; omega

/-- The part made of a piece. -/
def partOf : Piece → Part
  | .lit s => { verbType := .static, fmtStr := s }
  | .verb n sp =>
    let p : Part := match Map.get formatFuncs n with
      | some f => { verbType := .name, verbName := n, fmtFunc := f }
      | none => { verbType := .extend, verbName := n, fmtFunc := .extend }
    match sp with
    | none => p
    | some s => if n = c!"time" then { p with verbType := .time, layout := s } else { p with fmtStr := '%' :: s }

theorem slice_mid (a b c : Str) : slice (a ++ (b ++ c)) a.length (a.length + b.length) = b := by
  rw [slice, List.take_append, List.take_of_length_le (by omega), Nat.add_sub_cancel_left, List.take_append,
    List.take_of_length_le (Nat.le_refl _), Nat.sub_self, List.take_zero, List.append_nil, List.drop_append,
    List.drop_eq_nil_of_le (Nat.le_refl _), Nat.sub_self]; rfl

theorem verbPart_eq (a r : Str) (n : Str) (sp : Option Str) (x : Nat) :
    verbPart (a ++ (verbText n sp ++ r)) ⟨a.length, x, capsOf a.length n sp⟩ = partOf (.verb n sp) := by
  cases sp with
  | none =>
    have h : slice (a ++ (verbText n none ++ r)) (a.length + 2) (a.length + 2 + n.length) = n := by
      have := slice_mid (a ++ c!"%{") n (c!"}" ++ r)
      simp only [List.length_append, List.length_cons, List.length_nil] at this
      simpa [verbText] using this
    simp only [verbPart, capsOf, Map.get, if_true, Option.getD_some, h, partOf]
    cases Map.get formatFuncs n <;> simp
  | some s =>
    have h : slice (a ++ (verbText n (some s) ++ r)) (a.length + 2) (a.length + 2 + n.length) = n := by
      have := slice_mid (a ++ c!"%{") n (c!":" ++ s ++ c!"}" ++ r)
      simp only [List.length_append, List.length_cons, List.length_nil] at this
      simpa [verbText] using this
    have h2 : slice (a ++ (verbText n (some s) ++ r)) (a.length + 2 + n.length + 1) (a.length + 2 + n.length + 1 + s.length) = s := by
      have := slice_mid (a ++ c!"%{" ++ n ++ c!":") s (c!"}" ++ r)
      simp only [List.length_append, List.length_cons, List.length_nil] at this
      simpa [verbText, Nat.add_assoc] using this
    simp only [verbPart, capsOf, Map.get, if_true, Option.getD_some, h, partOf]
    cases Map.get formatFuncs n <;> simp [h2]

/-- The loop of the parser, with the literal text `lit` pending. -/
theorem parserLoop_cut (len : Nat) : ∀ (layout a lit s : Str), s.length ≤ len → layout = a ++ (lit ++ s) →
    (∀ k n sp, VerbAt (lit ++ s) k n sp → lit.length ≤ k) →
    ∃ ps, Cut (lit ++ s) ps ∧ parserLoop layout a.length (formatRe.findAll 0 (a.length + lit.length) s) = ps.map partOf := by
  induction len with
  | zero =>
    intro layout a lit s hs e hl
    have : s = [] := by cases s <;> simp_all
    subst this
    refine ⟨litOf lit, ?_, ?_⟩
    · rw [List.append_nil]
      refine .lit ?_
      rintro ⟨k, n, sp, h⟩
      have := hl k n sp (by simpa using h)
      obtain ⟨_, pre, post, e, rfl⟩ := h
      have h1 := verbText_pos n sp
      have h2 := congrArg List.length e; simp at h2; omega
    · simp only [Re.findAll, parserLoop]
      have : layout.drop a.length = lit := by rw [e]; simp
      rw [this, litOf]
      by_cases h : lit = [] <;> simp [h, partOf]
  | succ len ih =>
    intro layout a lit s hs e hl
    cases s with
    | nil => exact ih layout a lit [] (by simp) e hl
    | cons c cs =>
      cases hm : matchVerb (c :: cs) with
      | none =>
        rw [findAll_none hm]
        have h1 : lit ++ c :: cs = (lit ++ [c]) ++ cs := by simp
        obtain ⟨ps, hc, hp⟩ := ih layout a (lit ++ [c]) cs (by simp at hs; omega) (by rw [e, h1]) (by
          intro k n sp hv
          rw [← h1] at hv
          have h2 := hl k n sp hv
          rcases Nat.lt_or_eq_of_le h2 with h3 | h3
          · rw [List.length_append]; exact h3
          · exfalso
            have := verbAt_shift hv h2
            rw [← h3, Nat.sub_self] at this
            exact no_match hm _ _ this)
        refine ⟨ps, by rw [h1]; exact hc, ?_⟩
        rw [← hp]; simp [Nat.add_assoc]
      | some x =>
        obtain ⟨n, sp, r⟩ := x
        obtain ⟨es, ok⟩ := matchVerb_sound hm
        rw [findAll_some hm]
        have hp := verbText_pos n sp
        have hlen : (verbText n sp).length + r.length = (c :: cs).length := by rw [es]; simp
        obtain ⟨ps, hc, hpp⟩ := ih layout (a ++ (lit ++ verbText n sp)) [] r (by omega) (by rw [e, es]; simp) (by
          intro k n sp _; simp)
        refine ⟨litOf lit ++ .verb n sp :: ps, ?_, ?_⟩
        · rw [es, ← List.append_assoc]
          refine .verb ok ?_ (by simpa using hc)
          intro k n' sp' hv
          rw [List.append_assoc, ← es] at hv
          have h2 := hl k n' sp' hv
          refine ⟨h2, ?_⟩
          rintro rfl
          have hs' := verbAt_shift hv h2
          rw [Nat.sub_self] at hs'
          obtain ⟨ok', r', er⟩ := verbAt_drop hs'
          rw [List.drop_zero] at er
          obtain ⟨_, _, _, h3, h4⟩ := matchVerb_least (r := r') ok'
          rw [← er, hm] at h3
          simp only [Option.some.injEq, Prod.mk.injEq] at h3
          obtain ⟨rfl, rfl, rfl⟩ := h3
          exact h4
        · rw [parserLoop]
          have hv := verbPart_eq (a ++ lit) r n sp (a.length + lit.length + (verbText n sp).length)
          rw [List.length_append, List.append_assoc, ← es, ← e] at hv
          rw [hv]
          simp only [List.length_append, List.append_nil, List.length_nil, Nat.add_zero] at hpp
          rw [show a.length + lit.length + (verbText n sp).length = a.length + (lit.length + (verbText n sp).length) by omega, hpp]
          have hsl : slice layout a.length (a.length + lit.length) = lit := by rw [e]; exact slice_mid _ _ _
          rw [hsl, litOf]
          cases lit with
          | nil => simp
          | cons y ys => simp [partOf]

theorem findAll_nil (pos : Nat) (s : Str) : formatRe.findAll 0 pos s = [] ↔ ¬ HasVerb s := by
  induction s generalizing pos with
  | nil =>
    simp only [Re.findAll, true_iff]
    rintro ⟨k, n, sp, _, pre, post, e, _⟩
    have h1 := verbText_pos n sp
    have h2 := congrArg List.length e; simp at h2; omega
  | cons c cs ih =>
    cases hm : matchVerb (c :: cs) with
    | none =>
      rw [findAll_none hm, ih]
      apply not_congr
      constructor
      · rintro ⟨k, n, sp, hv⟩
        obtain ⟨ok, r, e⟩ := verbAt_drop hv
        exact ⟨k + 1, n, sp, verbAt_of_drop ok (by rw [List.drop_succ_cons]; exact e)⟩
      · rintro ⟨k, n, sp, hv⟩
        cases k with
        | zero => exact absurd hv (no_match hm _ _)
        | succ k =>
          obtain ⟨ok, r, e⟩ := verbAt_drop hv
          exact ⟨k, n, sp, verbAt_of_drop ok (by rw [List.drop_succ_cons] at e; exact e)⟩
    | some x =>
      obtain ⟨n, sp, r⟩ := x
      obtain ⟨e, ok⟩ := matchVerb_sound hm
      rw [findAll_some hm]
      simp only [reduceCtorEq, false_iff, Classical.not_not]
      exact ⟨0, n, sp, verbAt_of_drop ok (by rw [List.drop_zero]; exact e)⟩

theorem parser_some {layout : Str} {parts : List Part} (h : parser layout = some parts) :
    ∃ ps, Cut layout ps ∧ parts = ps.map partOf := by
  have h1 : parts = parserLoop layout 0 (formatRe.findAll 0 0 layout) := by
    simp only [parser] at h
    split at h
    · simp at h
    · injection h with h; exact h.symm
  obtain ⟨ps, hc, hp⟩ := parserLoop_cut layout.length layout [] [] layout (Nat.le_refl _) rfl (by simp)
  exact ⟨ps, hc, by rw [h1]; exact hp⟩

theorem parser_none (layout : Str) : parser layout = none ↔ ¬ HasVerb layout := by
  rw [← findAll_nil 0, parser]
  split
  · rename_i h; simp [h]
  · rename_i h; simpa using h

theorem written_litOf (s : Str) : written (litOf s) = s := by
  rw [litOf]; split
  · rename_i h; simp [written, h]
  · simp [written, Piece.text]

theorem cut_written {s : Str} {ps : List Piece} (h : Cut s ps) : written ps = s := by
  induction h with
  | lit _ => exact written_litOf _
  | verb _ _ _ ih =>
    have : ∀ a b, written (a ++ b) = written a ++ written b := fun a b => by simp [written]
    rw [this, written_litOf]
    simp only [written, List.flatMap_cons, Piece.text] at ih ⊢
    rw [ih, List.append_assoc]

theorem verbText_inj {n n' : Str} {sp sp' : Option Str} (h : VerbOK n sp) (h' : VerbOK n' sp') (e : verbText n sp = verbText n' sp') :
    n = n' ∧ sp = sp' := by
  have hn : ∀ x ∈ n, isAlnum x = true := fun x hx => (isAlnum_iff x).mpr (h.chars x hx)
  have hn' : ∀ x ∈ n', isAlnum x = true := fun x hx => (isAlnum_iff x).mpr (h'.chars x hx)
  have norm : ∀ (n : Str) (sp : Option Str), verbText n sp = '%' :: '{' :: (n ++ match sp with | none => '}' :: [] | some s => ':' :: (s ++ ['}'])) := by
    intro n sp; cases sp <;> simp [verbText]
  rw [norm n sp, norm n' sp'] at e
  simp only [List.cons.injEq, true_and] at e
  have key : ∀ (n : Str) (sp : Option Str), (∀ x ∈ n, isAlnum x = true) →
      (n ++ match sp with | none => '}' :: [] | some s => ':' :: (s ++ ['}'])).takeWhile isAlnum = n := by
    intro n sp hn
    cases sp with
    | none => exact (takeWhile_append_stop hn (by decide)).1
    | some s => exact (takeWhile_append_stop hn (by decide)).1
  have e2 : n = n' := by rw [← key n sp hn, ← key n' sp' hn', e]
  subst e2
  refine ⟨rfl, ?_⟩
  rw [List.append_cancel_left_eq] at e
  cases sp with
  | none => cases sp' with
    | none => rfl
    | some s => simp at e
  | some s => cases sp' with
    | none => simp at e
    | some s' => simp at e; rw [e]

theorem cut_unique {s : Str} {ps qs : List Piece} (h : Cut s ps) (h' : Cut s qs) : ps = qs := by
  induction h generalizing qs with
  | lit hn =>
    cases h' with
    | lit _ => rfl
    | verb ok _ _ => exact absurd ⟨_, _, _, ok, _, _, rfl, rfl⟩ hn
  | @verb pre n sp rest ps ok hl hc ih =>
    generalize hs : pre ++ verbText n sp ++ rest = s at h' hl
    cases h' with
    | lit hn => exact absurd ⟨_, _, _, ok, _, _, hs.symm, rfl⟩ hn
    | @verb pre' n' sp' rest' ps' ok' hl' hc' =>
      have v : VerbAt (pre' ++ verbText n' sp' ++ rest') pre.length n sp := ⟨ok, _, _, hs.symm, rfl⟩
      have v' : VerbAt (pre' ++ verbText n' sp' ++ rest') pre'.length n' sp' := ⟨ok', _, _, rfl, rfl⟩
      have l1 : pre.length = pre'.length := Nat.le_antisymm (hl _ _ _ v').1 (hl' _ _ _ v).1
      have l2 : (verbText n sp).length = (verbText n' sp').length :=
        Nat.le_antisymm ((hl _ _ _ v').2 l1.symm) ((hl' _ _ _ v).2 l1)
      simp only [List.append_assoc] at hs
      obtain ⟨e1, e2⟩ := List.append_inj hs l1
      obtain ⟨e3, e4⟩ := List.append_inj e2 l2
      obtain ⟨rfl, rfl⟩ := verbText_inj ok ok' e3
      subst e1 e4
      rw [ih hc']

theorem written_cons (p : Piece) (ps : List Piece) : written (p :: ps) = p.text ++ written ps := rfl

theorem verbText_two (n : Str) (sp : Option Str) : ∃ t, verbText n sp = '%' :: '{' :: t := by
  cases sp <;> exact ⟨_, by simp [verbText]; rfl⟩

/-- No verb starts in a literal of a careful list. -/
theorem lit_no_verb {s rest : Str} (hs : ∀ a b, s ≠ a ++ c!"%{" ++ b) (hr : rest = [] ∨ ∃ t, rest = '%' :: t) {k : Nat} {n : Str} {sp : Option Str}
    (hv : VerbAt (s ++ rest) k n sp) : s.length ≤ k := by
  rcases Nat.lt_or_ge k s.length with h | h
  · exfalso
    obtain ⟨_, r, e⟩ := verbAt_drop hv
    obtain ⟨t, ht⟩ := verbText_two n sp
    rw [ht, List.drop_append, show k - s.length = 0 by omega, List.drop_zero] at e
    have hsp := List.take_append_drop k s
    cases hd : s.drop k with
    | nil => rw [List.drop_eq_nil_iff] at hd; omega
    | cons x xs =>
      rw [hd] at e
      simp only [List.cons_append, List.cons.injEq] at e
      obtain ⟨rfl, e⟩ := e
      cases xs with
      | nil =>
        rcases hr with rfl | ⟨t, rfl⟩
        · simp at e
        · simp at e
      | cons y ys =>
        simp only [List.cons_append, List.cons.injEq] at e
        obtain ⟨rfl, e⟩ := e
        rw [hd] at hsp
        exact hs (s.take k) ys (by rw [List.append_assoc]; exact hsp.symm)
  · exact h

theorem careful_shortest {n : Str} {sp : Option Str} (ok : VerbOK n sp)
    (hc : ∀ s, sp = some s → '\n' ∉ s ∧ ∀ a b, s = a ++ '}' :: b → ∃ a', a = a' ++ ['\\']) {rest : Str} {n' : Str} {sp' : Option Str}
    (hv : VerbAt (verbText n sp ++ rest) 0 n' sp') : (verbText n sp).length ≤ (verbText n' sp').length := by
  obtain ⟨ok', r, e⟩ := verbAt_drop hv
  rw [List.drop_zero] at e
  have hn : ∀ x ∈ n, isAlnum x = true := fun x hx => (isAlnum_iff x).mpr (ok.chars x hx)
  have hn' : ∀ x ∈ n', isAlnum x = true := fun x hx => (isAlnum_iff x).mpr (ok'.chars x hx)
  have norm : ∀ (n : Str) (sp : Option Str) (r : Str), verbText n sp ++ r =
      '%' :: '{' :: (n ++ match sp with | none => '}' :: r | some s => ':' :: (s ++ '}' :: r)) := by
    intro n sp r; cases sp <;> simp [verbText]
  rw [norm, norm] at e
  simp only [List.cons.injEq, true_and] at e
  have key : ∀ (n : Str) (sp : Option Str) (r : Str), (∀ x ∈ n, isAlnum x = true) →
      (n ++ match sp with | none => '}' :: r | some s => ':' :: (s ++ '}' :: r)).takeWhile isAlnum = n := by
    intro n sp r hn
    cases sp with
    | none => exact (takeWhile_append_stop hn (by decide)).1
    | some s => exact (takeWhile_append_stop hn (by decide)).1
  have e2 : n = n' := by rw [← key n sp rest hn, ← key n' sp' r hn', e]
  subst e2
  rw [List.append_cancel_left_eq] at e
  cases sp with
  | none => cases sp' <;> simp [verbText]
  | some s => cases sp' with
    | none => simp at e
    | some s' =>
      simp only [List.cons.injEq, true_and] at e
      rcases Nat.lt_or_ge s'.length s.length with h | h
      · exfalso
        have h1 : (s ++ '}' :: rest).take s'.length = s' := by rw [e]; simp
        rw [List.take_append, show s'.length - s.length = 0 by omega, List.take_zero, List.append_nil] at h1
        have h2 : (s ++ '}' :: rest).drop s'.length = '}' :: r := by rw [e]; simp
        rw [List.drop_append, show s'.length - s.length = 0 by omega, List.drop_zero] at h2
        cases hd : s.drop s'.length with
        | nil => rw [List.drop_eq_nil_iff] at hd; omega
        | cons x xs =>
          rw [hd] at h2
          simp only [List.cons_append, List.cons.injEq] at h2
          have hsp := List.take_append_drop s'.length s
          rw [h1, hd, h2.1] at hsp
          obtain ⟨a', ha⟩ := (hc s rfl).2 s' xs hsp.symm
          obtain ⟨x', c, e', _, hb⟩ := ok'.spec s' rfl
          rw [ha] at e'
          have := List.append_inj' e' rfl
          simp at this
          exact hb this.2.symm
      · simp [verbText]; omega

theorem cut_verb_careful {n : Str} {sp : Option Str} (ok : VerbOK n sp)
    (hc : ∀ s, sp = some s → '\n' ∉ s ∧ ∀ a b, s = a ++ '}' :: b → ∃ a', a = a' ++ ['\\']) {pre rest : Str} {ps : List Piece}
    (hpre : ∀ a b, pre ≠ a ++ c!"%{" ++ b) (h : Cut rest ps) :
    Cut (pre ++ (verbText n sp ++ rest)) (litOf pre ++ .verb n sp :: ps) := by
  rw [← List.append_assoc]
  refine .verb ok ?_ h
  intro k n' sp' hv
  rw [List.append_assoc] at hv
  obtain ⟨t, ht⟩ := verbText_two n sp
  have h1 := lit_no_verb hpre (.inr ⟨'{' :: t ++ rest, by rw [ht]; rfl⟩) hv
  refine ⟨h1, ?_⟩
  rintro rfl
  have := verbAt_shift hv h1
  rw [Nat.sub_self] at this
  exact careful_shortest ok hc this

theorem careful_cut {ps : List Piece} (h : Careful ps) : Cut (written ps) ps := by
  have main : ∀ {ps : List Piece}, Careful ps → Cut (written ps) ps ∧
      ∀ s, s ≠ [] → (∀ a b, s ≠ a ++ c!"%{" ++ b) → (∀ t qs, ps ≠ .lit t :: qs) → Cut (s ++ written ps) (.lit s :: ps) := by
    intro ps h
    induction h with
    | nil =>
      have hno : ∀ s : Str, (∀ a b, s ≠ a ++ c!"%{" ++ b) → ¬ HasVerb s := by
        rintro s hs ⟨k, n, sp, hv⟩
        have h1 := lit_no_verb (rest := []) hs (.inl rfl) (by rw [List.append_nil]; exact hv)
        obtain ⟨_, pre, post, e, rfl⟩ := hv
        have h2 := verbText_pos n sp
        have h3 := congrArg List.length e; simp at h3; omega
      constructor
      · exact Cut.lit (s := []) (hno [] (by intro a b e; simp at e))
      · intro s hs hn _
        have := Cut.lit (hno s hn)
        rw [litOf, if_neg hs] at this
        simpa [written] using this
    | @lit s ps hs hn hp hcf ih =>
      exact ⟨ih.2 s hs hn hp, fun t _ _ hh => absurd rfl (hh s ps)⟩
    | @verb n sp ps ok hc hcf ih =>
      constructor
      · have := cut_verb_careful ok hc (pre := []) (by intro a b e; simp at e) ih.1
        simpa [litOf, written_cons, Piece.text] using this
      · intro s hs hn _
        have := cut_verb_careful ok hc hn ih.1
        rw [litOf, if_neg hs] at this
        simpa [written_cons, Piece.text] using this
  exact (main h).1

end Log4g
