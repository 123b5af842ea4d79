import Verif.Lemmas.Format
import Verif.Props.Logger

/-! # Layouts and lines: C33 – C41 -/

namespace Log4g
open Spec World
variable {V : Type}

/-! ## C33, C34, C35 -/

/-- C33: the pieces of an accepted layout, put together, are the layout; they are cut at the leftmost and
there shortest verbs, and there is only one way to do this. -/
theorem C33_lossless {layout : Str} {parts : List Part} (h : parser layout = some parts) :
    written (parts.map pieceOf) = layout ∧ Cut layout (parts.map pieceOf) ∧
    ∀ ps, Cut layout ps → ps = parts.map pieceOf := by
  obtain ⟨hc, _⟩ := parser_pieces h
  exact ⟨cut_written hc, hc, fun ps hp => cut_unique hp hc⟩

example : parser c!"%{time} %{level:-5s}|%{msg}\n" = some
    [⟨.name, c!"time", [], .time, []⟩, ⟨.static, [], c!" ", .extend, []⟩, ⟨.name, c!"level", c!"%-5s", .level, []⟩,
     ⟨.static, [], c!"|", .extend, []⟩, ⟨.name, c!"msg", [], .msg, []⟩, ⟨.static, [], c!"\n", .extend, []⟩] := by decide

/-- C34: what is carefully written is read back, if there is any verb in it. -/
theorem C34_roundtrip {ps : List Piece} (h : Careful ps) (hv : ∃ n sp, .verb n sp ∈ ps) :
    ∃ parts, parser (written ps) = some parts ∧ parts.map pieceOf = ps := by
  have hc := careful_cut h
  cases hp : parser (written ps) with
  | some parts => exact ⟨parts, rfl, cut_unique (parser_pieces hp).1 hc⟩
  | none =>
    exfalso
    refine (parser_none _).mp hp ?_
    obtain ⟨n, sp, hm⟩ := hv
    have ok : VerbOK n sp := by
      clear hc hp
      induction h with
      | nil => simp at hm
      | lit _ _ _ _ ih =>
        rcases List.mem_cons.mp hm with hm | hm
        · simp at hm
        · exact ih hm
      | verb ok _ _ ih =>
        rcases List.mem_cons.mp hm with hm | hm
        · injection hm with h1 h2; subst h1 h2; exact ok
        · exact ih hm
    obtain ⟨a, b, rfl⟩ := List.append_of_mem hm
    exact ⟨(written a).length, n, sp, ok, written a, written b, by simp [written, Piece.text], rfl⟩

example : Careful [.lit c!"[100%] ", .verb c!"time" (some c!"15:04\\}"), .verb c!"msg" none, .lit c!"}\n"] := by
  have dec : ∀ c, NameChar c ↔ isAlnum c = true := fun c => (isAlnum_iff c).symm
  refine .lit (by decide) ?_ (by simp) (.verb ⟨by decide, by simp only [dec]; decide, ?_⟩ ?_ (.verb ⟨by decide, by simp only [dec]; decide, by simp⟩ (by simp) (.lit (by decide) ?_ (by simp) .nil)))
  · intro a b e
    have : c!"[100%] ".length = (a ++ c!"%{" ++ b).length := by rw [e]
    have h2 : '{' ∈ c!"[100%] " := by rw [e]; simp
    revert h2; decide
  · intro sp e; injection e with e; subst e
    exact ⟨c!"15:04\\", '}', rfl, by decide, by decide⟩
  · intro sp e; injection e with e; subst e
    refine ⟨by decide, ?_⟩
    intro a b e
    have hb : b = [] := by
      have h1 := congrArg (fun s => s.takeWhile (· ≠ '}')) e
      have h2 : '}' ∉ a := by
        intro hh
        have := congrArg (fun s => s.count '}') e
        simp only [List.count_append, List.count_cons_self] at this
        have h3 := List.count_pos_iff.mpr hh
        have h4 : List.count '}' c!"15:04\\}" = 1 := by decide
        omega
      have h5 := congrArg (fun s => s.dropWhile (· ≠ '}')) e
      have h6 : (a ++ '}' :: b).dropWhile (· ≠ '}') = '}' :: b := (takeWhile_append_stop (p := (· ≠ '}')) (n := a) (c := '}') (r := b)
        (fun x hx => by simp; rintro rfl; exact h2 hx) (by decide)).2
      rw [h6] at h5
      have h7 : c!"15:04\\}".dropWhile (· ≠ '}') = ['}'] := by decide
      rw [h7] at h5
      simpa using h5.symm
    subst hb
    have : a = c!"15:04\\" := by
      have : c!"15:04\\" ++ ['}'] = a ++ ['}'] := e
      exact (List.append_cancel_right this).symm
    exact ⟨c!"15:04", this⟩
  · intro a b e
    have h2 : '{' ∈ c!"}\n" := by rw [e]; simp
    revert h2; decide

/-- C35: a layout is rejected exactly when nothing in it has the form of a verb. -/
theorem C35_rejected (layout : Str) :
    parser layout = none ↔ ¬ ∃ pre name spec post, VerbOK name spec ∧ layout = pre ++ verbText name spec ++ post := by
  rw [parser_none]
  refine not_congr ⟨?_, ?_⟩
  · rintro ⟨k, n, sp, ok, pre, post, e, _⟩; exact ⟨pre, n, sp, post, ok, e⟩
  · rintro ⟨pre, n, sp, post, ok, e⟩; exact ⟨_, n, sp, ok, pre, post, e, rfl⟩

example : parser c!"%{} 100% %{a-b}" = none ∧ parser c!"100% %{a}" ≠ none := by decide

/-! ## C36, C37 -/

/-- C36: the line is made of what the pieces print, in order; it is determined by what they print. -/
theorem C36_line {layout : Str} {parts : List Part} (h : parser layout = some parts) {ps : List Piece} (hcut : Cut layout ps)
    (lib : Lib V) (stack : List Frame) {e : Event V} {ci : CallerInfo} (hi : Informed e ci ps) :
    (∃ line e', format lib stack e parts = some (line, e') ∧ Line lib e ci ps line ∧
      ∀ line', Line lib e ci ps line' → line' = line) ∧
    (∀ e2 ci2 stack2, Informed e2 ci2 ps → (∀ p ∈ ps, ∀ s, Prints lib e ci p s → Prints lib e2 ci2 p s) →
      (format lib stack2 e2 parts).map (·.1) = (format lib stack e parts).map (·.1)) := by
  obtain rfl := (C33_lossless h).2.2 ps hcut
  obtain ⟨hc, hp⟩ := parser_pieces h
  have run : ∀ (stack : List Frame) (e : Event V) (ci : CallerInfo), Informed e ci (parts.map pieceOf) →
      ∃ line e', format lib stack e parts = some (line, e') ∧ Line lib e ci (parts.map pieceOf) line := by
    intro stack e ci hi
    obtain ⟨s, e', a, _, b⟩ := format_line lib stack (Same.refl e) (cut_spec_ne hc) hi
    rw [← hp] at a
    exact ⟨s, e', a, b⟩
  obtain ⟨line, e', a, b⟩ := run stack e ci hi
  refine ⟨⟨line, e', a, b, fun l' hl' => line_eq hl' b⟩, ?_⟩
  intro e2 ci2 stack2 hi2 hh
  obtain ⟨line2, e2', a2, b2⟩ := run stack2 e2 ci2 hi2
  rw [a, a2]
  simp only [Option.map_some]
  rw [line_eq b2 (line_congr b hh)]

/-- A library for examples: `%v` prints nothing but the name of the verb. -/
def Demo.lib : Lib Nat where
  sprintf := fun f _ => f
  sprint := fun _ => c!"args"
  asString := fun _ => none
  timeFormat := fun _ l => l
  pid := 7
  program := c!"demo"

def Demo.event : Event Nat where
  format := c!"50% of %{msg}\n"
  arguments := []
  name := c!"a/b"
  level := 5
  time := 0
  callDepth := 3
  ctx := [(c!"__caller_info", .ci ⟨c!"/x/main.go", 12, c!"m/p", c!"(*T).f", some c!"m/p.(*T).f"⟩)]

example : Informed Demo.event ⟨c!"/x/main.go", 12, c!"m/p", c!"(*T).f", some c!"m/p.(*T).f"⟩
    [.verb c!"shortfunc" none, .verb c!"msg" none] := ⟨fun _ => rfl, fun _ => .inl (by decide)⟩

example : ∃ parts, parser c!"%{lvl} %{shortfile} %{shortfunc} %{msg}" = some parts ∧
    (format Demo.lib [] Demo.event parts).map (·.1) = some c!"WRN main.go f 50% of %{msg}\n" := ⟨_, rfl, by decide⟩

/-- C37: the message and the logger name are printed as they are. -/
theorem C37_verbatim {layout : Str} {parts : List Part} (h : parser layout = some parts) {xs ys : List Piece} {n : Str}
    (hcut : Cut layout (xs ++ .verb n none :: ys)) (lib : Lib V) (stack : List Frame)
    {e : Event V} {ci : CallerInfo} (hi : Informed e ci (xs ++ .verb n none :: ys)) {text : Str}
    (hn : (n = c!"msg" ∧ text = e.message lib) ∨ (n = c!"module" ∧ text = e.name)) :
    ∃ a b e', Line lib e ci xs a ∧ Line lib e ci ys b ∧ format lib stack e parts = some (a ++ text ++ b, e') := by
  obtain ⟨⟨line, e', hf, hl, _⟩, _⟩ := C36_line h hcut lib stack hi
  obtain ⟨a, b, h1, h2, rfl⟩ := line_split hl
  cases h2 with
  | @cons _ _ s t hp ht =>
    have hs : Prints lib e ci (.verb n none) text := by
      rcases hn with ⟨rfl, rfl⟩ | ⟨rfl, rfl⟩
      · rw [← messageText_eq]; exact .plain .msg .str
      · exact .plain .module_ .str
    rw [prints_eq hp hs] at hf
    exact ⟨a, t, e', h1, ht, by rw [hf]; simp⟩

example : Cut c!"%{lvl} %{module}: %{msg}"
    ([.verb c!"lvl" none, .lit c!" ", .verb c!"module" none, .lit c!": "] ++ .verb c!"msg" none :: []) :=
  (C33_lossless (layout := c!"%{lvl} %{module}: %{msg}") rfl).2.1

/-! ## C38 -/

/-- C38 is false: `Debugf("100%%")` prints two percent signs, `Sprintf("100%%")` one. -/
theorem C38_message_refuted (lib : Lib V) (hlib : lib.sprintf c!"100%%" [] = c!"100%") :
    ∃ (w : World) (n : Str) (r : Nat), Reach w ∧ Map.get w.loggers n = some r ∧
      ∃ d ∈ (w.call 0 [] r ([] : Ctx V) (.errorf c!"100%%") []).deliveries,
        d.evt.message lib ≠ lib.sprintf c!"100%%" (([] : List V).map fun v => .any (.user v)) := by
  refine ⟨Demo.w1, c!"x", 3, Demo.w1_reach, rfl, _, List.mem_cons_self, ?_⟩
  simp only [List.map_nil, hlib]
  show c!"100%%" ≠ c!"100%"
  decide

/-- C38, what holds: `Xf(f, args...)` gives `Sprintf(f, args...)` if there is an argument and `f` is not
empty, `X(args...)` gives `Sprint(args...)` if there is an argument, and so does `Xf` with an empty format; without
arguments the message is `f` itself, nothing for `X()`. -/
theorem C38_message_partial (lib : Lib V) {w : World} (hw : Reach w) {n : Str} {r : Nat} (hn : Map.get w.loggers n = some r)
    (now : Nat) (stack : List Frame) (ctx : Ctx V) (m : Method) (lvl : Level) (fmt : Option Str) (hm : Logs m lvl fmt) (args : List V) :
    ∀ d ∈ (w.call now stack r ctx m args).deliveries,
      (∀ f, fmt = some f → args ≠ [] → f ≠ [] → d.evt.message lib = lib.sprintf f (args.map fun v => .any (.user v))) ∧
      (fmt = none → args ≠ [] → d.evt.message lib = lib.sprint args) ∧
      (fmt = some [] → args ≠ [] → d.evt.message lib = lib.sprint args) ∧
      (∀ f, fmt = some f → args = [] → d.evt.message lib = f) ∧
      (fmt = none → args = [] → d.evt.message lib = []) := by
  intro d hd
  obtain ⟨_, _, h1, h2, _⟩ := (C11_attribution hw hn now stack ctx args).2 m lvl fmt hm d hd
  simp only [Event.message, h1, h2]
  refine ⟨?_, ?_, ?_, ?_, ?_⟩
  · rintro f rfl a b
    rw [if_pos a, if_pos (by simpa using b)]; rfl
  · rintro rfl a
    rw [if_pos a, if_neg (by simp)]
  · rintro rfl a
    rw [if_pos a, if_neg (by simp)]
  · rintro f rfl a
    rw [if_neg (by simp [a])]; rfl
  · rintro rfl a
    rw [if_neg (by simp [a])]; rfl

/-- The hypotheses are met by a call with a format and an argument that is delivered. -/
example : Logs (.errorf c!"n=%d") 6 (some c!"n=%d") ∧
    (Demo.w1.call 0 [] 3 [] (.errorf c!"n=%d") [7]).deliveries.map (fun d => (d.evt.format, d.evt.arguments)) =
      [(c!"n=%d", [7]), (c!"n=%d", [7])] :=
  ⟨.errorf _, by decide +kernel⟩

/-! ## C39 -/

/-- C39: a verb that is no built-in name prints the field of that name (the last one given), `<nil>` if there
is none. -/
theorem C39_fields {layout : Str} {parts : List Part} (h : parser layout = some parts) {xs ys : List Piece} {key : Str} {spec : Option Str}
    (hcut : Cut layout (xs ++ .verb key spec :: ys)) (hkey : key ∉ builtins)
    (lib : Lib V) (hnil : lib.sprintf c!"%v" [.any .nil] = c!"<nil>") (stack : List Frame) {e : Event V} {ci : CallerInfo}
    (hi : Informed e ci (xs ++ .verb key spec :: ys)) {fields : List (Field V)} (hctx : e.ctx.value key = (withFields fields).value key) :
    ∃ a b e' text, Line lib e ci xs a ∧ Line lib e ci ys b ∧ format lib stack e parts = some (a ++ text ++ b, e') ∧
      (∀ v, LastField fields key (.user v) → spec = none → text = (lib.asString v).getD (lib.sprintf c!"%v" [.any (.user v)])) ∧
      (∀ v sp, LastField fields key v → spec = some sp → text = lib.sprintf ('%' :: sp) [.any v]) ∧
      ((∀ f ∈ fields, f.key ≠ key) → spec = none → text = c!"<nil>") := by
  obtain ⟨⟨line, e', hf, hl, _⟩, _⟩ := C36_line h hcut lib stack hi
  obtain ⟨a, b, h1, h2, rfl⟩ := line_split hl
  cases h2 with
  | @cons _ _ s t hp ht =>
    refine ⟨a, t, e', s, h1, ht, by rw [hf]; simp, ?_⟩
    have hval : Value lib e ci key (.any (e.ctx.value key)) := .field hkey
    have hnt : key ≠ c!"time" := by rintro rfl; exact hkey (by decide)
    refine ⟨?_, ?_, ?_⟩
    · rintro v hv rfl
      rw [hctx, (withFields_value fields key).1 _ hv] at hval
      refine prints_eq hp (.plain hval ?_)
      cases ha : lib.asString v with
      | some t => exact .userStr ha
      | none => exact .other (by simp) (by intro v' s' e'; injection e' with e'; injection e' with e'; subst e'; rw [ha]; simp)
    · rintro v sp hv rfl
      rw [hctx, (withFields_value fields key).1 _ hv] at hval
      exact prints_eq hp (.fmt hnt hval)
    · rintro hno rfl
      rw [hctx, (withFields_value fields key).2 hno] at hval
      have := Plain.other (lib := lib) (a := .any .nil) (by simp) (by simp)
      rw [hnil] at this
      exact prints_eq hp (.plain hval this)

/-- C39, the other half: a layout of built-in verbs gives the same line whatever the fields are, as long as the event
has the same caller information. -/
theorem C39_all_builtins {layout : Str} {parts : List Part} (h : parser layout = some parts) {ps : List Piece} (hcut : Cut layout ps)
    (hb : ∀ n sp, .verb n sp ∈ ps → n ∈ builtins) (lib : Lib V) (stack stack' : List Frame) {e : Event V} {ctx : Ctx V} {ci : CallerInfo}
    (hi : Informed e ci ps) (hi' : Informed { e with ctx := ctx } ci ps) :
    ∃ line, (format lib stack e parts).map (·.1) = some line ∧ (format lib stack' { e with ctx := ctx } parts).map (·.1) = some line := by
  obtain ⟨⟨line, e', hf, _⟩, hc⟩ := C36_line h hcut lib stack hi
  refine ⟨line, by rw [hf]; rfl, ?_⟩
  rw [hc { e with ctx := ctx } _ stack' hi', hf]
  · rfl
  intro p hpm s hp
  cases p with
  | lit t => cases hp; exact .lit
  | verb n sp =>
    have hn := hb n sp hpm
    have hv : ∀ a, Value lib e ci n a → Value lib { e with ctx := ctx } ci n a := by
      intro a ha
      cases ha with
      | field hh => exact absurd hn hh
      | pid => exact .pid
      | program => exact .program
      | module_ => exact .module_
      | msg => exact .msg (e := { e with ctx := ctx })
      | level => exact .level
      | lvl => exact .lvl
      | line => exact .line
      | longfile => exact .longfile
      | shortfile hl => exact .shortfile hl
      | longpkg => exact .longpkg
      | shortpkg hl => exact .shortpkg hl
      | longfunc => exact .longfunc
      | shortfunc hl => exact .shortfunc hl
      | time => exact .time
    cases hp with
    | plain h1 h2 => exact .plain (hv _ h1) h2
    | time => exact .time (e := { e with ctx := ctx })
    | fmt h1 h2 => exact .fmt h1 (hv _ h2)

example : Informed { Demo.event with ctx := Demo.event.ctx.withValue c!"user" (.user 1) }
    ⟨c!"/x/main.go", 12, c!"m/p", c!"(*T).f", some c!"m/p.(*T).f"⟩ [.verb c!"shortfunc" none, .verb c!"msg" none] :=
  ⟨fun _ => rfl, fun _ => .inl (by decide)⟩

/-- C39: so a layout of built-in verbs without caller information gives the same line in any case. -/
theorem C39_builtins {layout : Str} {parts : List Part} (h : parser layout = some parts) {ps : List Piece} (hcut : Cut layout ps)
    (hb : ∀ n sp, .verb n sp ∈ ps → n ∈ builtins ∧ n ∉ fileVerbs ++ funcVerbs) (lib : Lib V) (stack stack' : List Frame) (e : Event V) (ctx : Ctx V) :
    ∃ line, (format lib stack e parts).map (·.1) = some line ∧ (format lib stack' { e with ctx := ctx } parts).map (·.1) = some line := by
  have inf : ∀ e : Event V, Informed e ⟨[], 0, [], [], none⟩ ps := fun e =>
    ⟨fun ⟨n, sp, a, b⟩ => absurd b (hb n sp a).2, fun ⟨n, sp, a, b⟩ => absurd (List.mem_append.mpr (.inr b)) (hb n sp a).2⟩
  exact C39_all_builtins h hcut (fun n sp hm => (hb n sp hm).1) lib stack stack' (inf e) (inf _)

example : Cut c!"%{lvl} %{user:-9v}|" ([.verb c!"lvl" none, .lit c!" "] ++ .verb c!"user" (some c!"-9v") :: [.lit c!"|"]) :=
  (C33_lossless (layout := c!"%{lvl} %{user:-9v}|") rfl).2.1

example : (c!"user" ∉ builtins) ∧ LastField [⟨c!"user", .user 1⟩, ⟨c!"user", .user (2 : Nat)⟩] c!"user" (.user 2) :=
  ⟨by decide, [_], [], _, rfl, rfl, rfl, by simp⟩

/-! ## C40, C41 -/

/-- C40: the flag of a text formatter. -/
theorem C40_flag {layout : Str} {parts : List Part} (h : parser layout = some parts) {ps : List Piece} (hcut : Cut layout ps) :
    ((∃ n ∈ funcVerbs, ∃ sp, .verb n sp ∈ ps) → callerInfoFlag parts = 2) ∧
    ((∀ n ∈ funcVerbs, ∀ sp, .verb n sp ∉ ps) →
      ((∃ n ∈ fileVerbs, ∃ sp, .verb n sp ∈ ps) → callerInfoFlag parts = 1) ∧
      ((∀ n ∈ fileVerbs, ∀ sp, .verb n sp ∉ ps) → callerInfoFlag parts = 0)) := by
  obtain rfl := (C33_lossless h).2.2 ps hcut
  obtain ⟨hc, hp⟩ := parser_pieces h
  have hfl : callerInfoFlag parts = parts.foldl (fun ret v => max ret (verbFlag v.verbName)) 0 := callerInfoFlag_fold parts 0 (by omega)
  obtain ⟨h1, h2, h3⟩ := foldl_max parts 0
  rw [← hfl] at h1 h2 h3
  have hle : ∀ n, verbFlag n ≤ 2 := by intro n; simp only [verbFlag]; split <;> (try split) <;> omega
  have mem : ∀ n, n ≠ [] → ((∃ p ∈ parts, p.verbName = n) ↔ ∃ sp, .verb n sp ∈ parts.map pieceOf) := by
    intro n hn
    have := verb_mem hc n hn
    rwa [← hp] at this
  have up : callerInfoFlag parts ≤ 2 := by
    rcases h3 with h3 | ⟨p, _, h3⟩
    · omega
    · rw [h3]; exact hle _
  have ne1 : ∀ n ∈ funcVerbs, n ≠ [] := by decide
  have ne2 : ∀ n ∈ fileVerbs, n ≠ [] := by decide
  refine ⟨?_, ?_⟩
  · rintro ⟨n, hn, hs⟩
    obtain ⟨p, hpp, rfl⟩ := (mem n (ne1 n hn)).mpr hs
    have := h2 p hpp
    simp only [verbFlag, hn, if_true] at this
    omega
  · intro hno
    have nof : ∀ p ∈ parts, p.verbName ∉ funcVerbs := by
      intro p hpp hf
      obtain ⟨sp, hs⟩ := (mem _ (ne1 _ hf)).mp ⟨p, hpp, rfl⟩
      exact hno _ hf sp hs
    refine ⟨?_, ?_⟩
    · rintro ⟨n, hn, hs⟩
      obtain ⟨p, hpp, rfl⟩ := (mem n (ne2 n hn)).mpr hs
      have := h2 p hpp
      simp only [verbFlag, nof p hpp, hn, if_true, if_false] at this
      rcases h3 with h3 | ⟨q, hq, h3⟩
      · omega
      · rw [h3]; rw [h3] at this
        simp only [verbFlag, nof q hq, if_false] at this ⊢
        split at this
        · rename_i hh; rw [if_pos hh]
        · omega
    · intro hno2
      rcases h3 with h3 | ⟨q, hq, h3⟩
      · exact h3
      · rw [h3]
        have : q.verbName ∉ fileVerbs := by
          intro hf
          obtain ⟨sp, hs⟩ := (mem _ (ne2 _ hf)).mp ⟨q, hq, rfl⟩
          exact hno2 _ hf sp hs
        simp [verbFlag, nof q hq, this]

example : (parser c!"%{msg} %{line} %{longpkg:s}").map callerInfoFlag = some 2 ∧
    (parser c!"%{msg} %{line}").map callerInfoFlag = some 1 ∧ (parser c!"%{msg} longpkg").map callerInfoFlag = some 0 := by decide

/-- C41: the split of a function name never panics; it gives package and function if they can be told apart,
and question marks otherwise. -/
theorem C41_split (fs : Str) :
    splitFuncGo fs = some (splitFunc fs) ∧
    (∀ pkg fun_, QualName fs pkg fun_ → splitFunc fs = (pkg, fun_)) ∧
    ((∀ pkg fun_, ¬ QualName fs pkg fun_) → splitFunc fs = (c!"???", c!"???")) := by
  refine ⟨?_, fun pkg f h => splitFunc_iff fs pkg f h, splitFunc_none fs⟩
  obtain ⟨hle, _, _⟩ := afterLast_split '/' fs
  simp only [splitFuncGo, splitFunc]
  have e1 : sliceGo fs ((afterLast '/' fs : Int) - 1 + 1) fs.length = some (fs.drop (afterLast '/' fs)) := by
    rw [sliceGo, if_pos (by omega)]
    rw [show ((afterLast '/' fs : Int) - 1 + 1).toNat = afterLast '/' fs by omega, Int.toNat_natCast, List.take_length]
  rw [e1]
  simp only
  rcases indexOf_spec '.' (fs.drop (afterLast '/' fs)) with ⟨h, _⟩ | ⟨a, b, e, _, h⟩
  · rw [h]; rfl
  · rw [h]
    simp only
    have hlen := congrArg List.length e
    simp only [List.length_drop, List.length_append, List.length_cons] at hlen
    by_cases h1 : a.length < 1
    · rw [if_pos (by omega), if_pos h1]
    · rw [if_neg (by omega), if_neg h1]
      rw [sliceGo, if_pos (by omega), sliceGo, if_pos (by omega)]
      simp only [Int.toNat_zero, List.drop_zero, Int.toNat_natCast, List.take_length, Option.some.injEq, Prod.mk.injEq]
      constructor
      · congr 1; omega
      · congr 1; omega

example : QualName c!"github.com/x.y/pkg.(*T).f" c!"github.com/x.y/pkg" c!"(*T).f" :=
  ⟨rfl, c!"github.com/x.y/", c!"pkg", rfl, by decide, by decide, by decide, by decide, .inr ⟨c!"github.com/x.y", rfl⟩⟩

/-! ## C76 -/

/-- C76: what a text formatter makes of a logged event is the line of its layout, with the place the method
was called from as file, line, package and function. -/
theorem C76_logged_line {as : List Act} {w : World} (hw : Steps {} as w) {n : Str} {r : Nat}
    (hn : Map.get w.loggers n = some r)
    (hflags : ∀ o flag, Wants w o flag → flag = 0 ∨ flag = 1 ∨ flag = 2)
    (now : Nat) (stack : List Frame) (ctx : Ctx V) (hctx : ctx.value callerInfoKey = .nil) (m : Method) (args : List V)
    (k : Nat) (hk : skipOf as r = k) (fr : Frame) (hfr : stack[k]? = some fr)
    {layout : Str} {parts : List Part} (hlay : parser layout = some parts) {ps : List Piece} (hcut : Cut layout ps) (lib : Lib V) :
    ∀ d ∈ (w.call now stack r ctx m args).deliveries, Wants w d.out (callerInfoFlag parts) → ∀ stack',
      ∃ ci line e', format lib stack' d.evt parts = some (line, e') ∧ Line lib d.evt ci ps line ∧
        ((∃ v sp, .verb v sp ∈ ps ∧ v ∈ fileVerbs ++ funcVerbs) → ci.file = fr.file ∧ ci.line = fr.line) ∧
        ((∃ v sp, .verb v sp ∈ ps ∧ v ∈ funcVerbs) →
          (∀ pkg fun_, QualName fr.func pkg fun_ → ci.pkg = pkg ∧ ci.fun_ = fun_) ∧
          ((∀ pkg fun_, ¬ QualName fr.func pkg fun_) → ci.pkg = c!"???" ∧ ci.fun_ = c!"???")) := by
  intro d hd hfl stack'
  obtain ⟨c1, c2⟩ := C15_caller_info hw hn hflags now stack ctx hctx m args k hk fr hfr d hd
  obtain ⟨f2, f10⟩ := C40_flag hlay hcut
  have fin : ∀ ci, Informed d.evt ci ps → ∃ line e', format lib stack' d.evt parts = some (line, e') ∧
      Line lib d.evt ci ps line := fun ci hi => by
    obtain ⟨⟨line, e', a, b, _⟩, _⟩ := C36_line hlay hcut lib stack' hi
    exact ⟨line, e', a, b⟩
  by_cases hfun : ∃ v sp, .verb v sp ∈ ps ∧ v ∈ funcVerbs
  · have h2 : Wants w d.out 2 := by
      obtain ⟨v, sp, a, b⟩ := hfun
      rw [← f2 ⟨v, b, sp, a⟩]; exact hfl
    obtain ⟨c, hc, hq, hnq⟩ := c2 h2
    obtain ⟨c', hc', e1, e2⟩ := c1 (.inr h2)
    rw [hc] at hc'; injection hc' with hc'; subst hc'
    have hpkg : c.pkg ≠ [] := by
      by_cases hh : ∃ pkg fun_, QualName fr.func pkg fun_
      · obtain ⟨pkg, f, hh⟩ := hh
        rw [(hq pkg f hh).1]
        obtain ⟨_, a, b, hb, hne, _⟩ := hh
        rw [hb]; simp [hne]
      · rw [(hnq fun pkg f hx => hh ⟨pkg, f, hx⟩).1]; decide
    obtain ⟨line, e', a, b⟩ := fin c ⟨fun _ => hc, fun _ => .inl hpkg⟩
    exact ⟨c, line, e', a, b, fun _ => ⟨e1, e2⟩, fun _ => ⟨hq, hnq⟩⟩
  · by_cases hfile : ∃ v sp, .verb v sp ∈ ps ∧ v ∈ fileVerbs ++ funcVerbs
    · have h1 : Wants w d.out 1 := by
        refine (f10 fun v b sp a => hfun ⟨v, sp, a, b⟩).1 ?_ ▸ hfl
        obtain ⟨v, sp, a, b⟩ := hfile
        rcases List.mem_append.mp b with b | b
        · exact ⟨v, b, sp, a⟩
        · exact absurd ⟨v, sp, a, b⟩ hfun
      obtain ⟨c, hc, e1, e2⟩ := c1 (.inl h1)
      obtain ⟨line, e', a, b⟩ := fin c ⟨fun _ => hc, fun h => absurd h hfun⟩
      exact ⟨c, line, e', a, b, fun _ => ⟨e1, e2⟩, fun h => absurd h hfun⟩
    · obtain ⟨line, e', a, b⟩ := fin { file := [], line := 0 } ⟨fun h => absurd h hfile, fun h => absurd h hfun⟩
      exact ⟨_, line, e', a, b, fun h => absurd h hfile, fun h => absurd h hfun⟩

/-- In the sample program outputs have flag 2, as the layout here, and a message from "x" reaches them. -/
example : (parser c!"%{longpkg} %{line}").map callerInfoFlag = some 2 ∧
    ((Demo.w1.call 0 [⟨c!"main.go", 12, c!"main.main"⟩] 3 ([] : Ctx Unit) .error []).deliveries.map (·.out)) = [1, 0] := by decide

end Log4g
