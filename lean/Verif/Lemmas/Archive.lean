import Verif.Spec.Archive

/-! # Lemmas about archives -/

namespace Log4g
namespace Archive
set_option linter.unusedSimpArgs false
open Spec

/-- What a reader has yet to deliver. -/
def Reader.left : Reader → List (Str × Bytes)
  | .tar es _ => pairs es
  | .zip files unread _ => pairs (unread.getD files)
  | .gzip name isEOF data => if isEOF then [] else [(name, data)]
  | .nop r => r.left

theorem next_eof {r : Reader} (h : r.left = []) : ∃ r', r.nextFile = (.eof, r') := by
  induction r with
  | tar es cur =>
    cases es with
    | nil => exact ⟨_, rfl⟩
    | cons e es => simp [Reader.left, pairs] at h
  | zip files unread cur =>
    simp only [Reader.left] at h
    simp only [Reader.nextFile]
    cases hu : unread.getD files with
    | nil => exact ⟨_, rfl⟩
    | cons e es => rw [hu] at h; simp [pairs] at h
  | gzip name isEOF data =>
    cases isEOF with
    | true => exact ⟨_, rfl⟩
    | false => simp [Reader.left] at h
  | nop r ih =>
    obtain ⟨r', h'⟩ := ih h
    exact ⟨.nop r', by simp [Reader.nextFile, h']⟩

theorem next_file {r : Reader} {n : Str} {bs : Bytes} {rest : List (Str × Bytes)} (h : r.left = (n, bs) :: rest) :
    ∃ r', r.nextFile = (.file n, r') ∧ r'.rest = bs ∧ ∀ k, (r'.skip k).left = rest := by
  induction r with
  | tar es cur =>
    cases es with
    | nil => simp [Reader.left, pairs] at h
    | cons e es =>
      simp only [Reader.left, pairs, List.map_cons, List.cons.injEq, Prod.mk.injEq] at h
      obtain ⟨⟨rfl, rfl⟩, rfl⟩ := h
      exact ⟨_, rfl, rfl, fun _ => rfl⟩
  | zip files unread cur =>
    simp only [Reader.left] at h
    simp only [Reader.nextFile]
    cases hu : unread.getD files with
    | nil => rw [hu] at h; simp [pairs] at h
    | cons e es =>
      rw [hu] at h
      simp only [pairs, List.map_cons, List.cons.injEq, Prod.mk.injEq] at h
      obtain ⟨⟨rfl, rfl⟩, rfl⟩ := h
      exact ⟨_, rfl, rfl, fun _ => rfl⟩
  | gzip name isEOF data =>
    cases isEOF with
    | true => simp [Reader.left] at h
    | false =>
      simp only [Reader.left, Bool.false_eq_true, if_false, List.cons.injEq, Prod.mk.injEq] at h
      obtain ⟨⟨rfl, rfl⟩, rfl⟩ := h
      exact ⟨_, rfl, rfl, fun _ => rfl⟩
  | nop r ih =>
    obtain ⟨r', h1, h2, h3⟩ := ih h
    exact ⟨.nop r', by simp [Reader.nextFile, h1], h2, h3⟩

theorem turns_left (r : Reader) : r.left.length + 1 ≤ r.turns := by
  induction r with
  | tar es cur => simp [Reader.left, Reader.turns, pairs]
  | zip files unread cur => simp [Reader.left, Reader.turns, pairs]
  | gzip name isEOF data => cases isEOF <;> simp [Reader.left, Reader.turns]
  | nop r ih => exact ih

theorem addLast_concat (bs : Bytes) (ps : List Part) (p : Part) : addLast bs (ps ++ [p]) = ps ++ [{ p with data := p.data ++ bs }] := by
  induction ps with
  | nil => rfl
  | cons q ps ih =>
    cases ps with
    | nil => rfl
    | cons r ps => simp only [List.cons_append, addLast]; simp only [List.cons_append] at ih; rw [ih]

/-- Pouring into a file just begun. -/
theorem pour_new {faults : Faults} {s : CState} {w : Writer} {n : Str} {bs : Bytes} (hf : w.format ≠ .gzip) (hs : s.dst = { w with parts := w.parts ++ [⟨n, bs.length, []⟩] }) :
    ∃ ok k, pour faults s bs = (ok, { s with dst := { w with parts := w.parts ++ [⟨n, bs.length, bs.take k⟩] }, ops := s.ops + 1 }) ∧
      (ok = true → bs.take k = bs) ∧ (NoFaults faults → ok = true) := by
  have hroom : s.dst.room bs = bs.length := by
    simp only [hs, Writer.room, List.getLast?_concat]
    cases w.format <;> simp
  have hwr : ∀ k, s.dst.write (bs.take k) = { w with parts := w.parts ++ [⟨n, bs.length, bs.take k⟩] } := by
    intro k
    simp only [hs, Writer.write]
    cases hw : w.format with
    | gzip => exact absurd hw hf
    | tar => simp [addLast_concat]
    | zip => simp [addLast_concat]
  cases hfa : faults s.ops with
  | none =>
    refine ⟨true, bs.length, ?_, fun _ => List.take_length, fun _ => rfl⟩
    have := hwr bs.length
    rw [List.take_length] at this
    simp only [pour, hfa, hroom, Nat.le_refl, if_true, this, List.take_length]
  | some k =>
    refine ⟨false, min k bs.length, ?_, fun h => by (cases h), fun h => by rw [h] at hfa; cases hfa⟩
    simp only [pour, hfa, hroom, hwr]

theorem all_last {w : Writer} (h : Ready w) : w.parts.getLast?.all (fun p => p.data.length = p.size) = true := by
  cases hl : w.parts.getLast? with
  | none => rfl
  | some p => simpa using h p (List.mem_of_getLast? hl)

theorem ready_add {w : Writer} (h : Ready w) (n : Str) (bs : Bytes) : Ready { w with parts := w.parts ++ [⟨n, bs.length, bs⟩] } := by
  intro p hp
  rcases List.mem_append.mp hp with hp | hp
  · exact h p hp
  · obtain rfl := List.mem_singleton.mp hp; rfl

theorem nextFile_ready {w : Writer} (h : Ready w) (hf : w.format ≠ .gzip) (b n : Str) (size : Nat) :
    w.nextFile b n size = some { w with parts := w.parts ++ [⟨entryName b n, size, []⟩] } := by
  simp only [Writer.nextFile]
  split
  · rw [if_pos (all_last h)]
  · rfl
  · rename_i h; exact absurd h hf

/-- One turn of the loop. -/
theorem copyOne_spec {faults : Faults} {s : CState} (hw : Ready s.dst) (hf : s.dst.format ≠ .gzip) (hb : s.buf.data = []) (hp : s.buf.pos = 0) (name : Str) :
    ∃ ok s', copyOne faults s name = (ok, s') ∧
    (ok = true → s'.dst = { s.dst with parts := s.dst.parts ++ [⟨entryName s.buf.name name, s.src.rest.length, s.src.rest⟩] } ∧
      s'.src = s.src.skip s.src.rest.length ∧ s'.buf = s.buf) ∧
    (ok = false → s'.dst = s.dst ∨ ∃ k, s'.dst = { s.dst with parts := s.dst.parts ++ [⟨entryName s.buf.name name, s.src.rest.length, s.src.rest.take k⟩] }) ∧
    (NoFaults faults → ok = true) := by
  have hbuf : ∀ bs, s.buf.write bs = { s.buf with data := bs, pos := bs.length } := by
    intro bs
    simp [Buf.write, hb, hp]
  have hbs : ({ name := s.buf.name, data := [], pos := 0 } : Buf) = s.buf := by rw [← hb, ← hp]
  have hno : ∀ {i k}, faults i = some k → NoFaults faults → False := fun h h' => by rw [h'] at h; cases h
  cases h0 : faults s.ops with
  | some k => exact ⟨false, _, by simp only [copyOne, Bool.not_true, Bool.not_false, Bool.false_eq_true, reduceIte, Option.isNone_none, Option.isNone_some, fill, h0]; rfl, fun h => by (cases h), fun _ => .inl (by rfl), fun h => (hno h0 h).elim⟩
  | none =>
  cases h1 : faults (s.ops + 1) with
  | some k => exact ⟨false, _, by simp only [copyOne, Bool.not_true, Bool.not_false, Bool.false_eq_true, reduceIte, Option.isNone_none, Option.isNone_some, fill, tick, h0, h1]; rfl, fun h => by (cases h), fun _ => .inl (by rfl), fun h => (hno h1 h).elim⟩
  | none =>
  cases h2 : faults (s.ops + 1 + 1) with
  | some k => exact ⟨false, _, by simp only [copyOne, Bool.not_true, Bool.not_false, Bool.false_eq_true, reduceIte, Option.isNone_none, Option.isNone_some, fill, tick, h0, h1, h2]; rfl, fun h => by (cases h), fun _ => .inl (by rfl), fun h => (hno h2 h).elim⟩
  | none =>
  cases h3 : faults (s.ops + 1 + 1 + 1) with
  | some k => exact ⟨false, _, by simp only [copyOne, Bool.not_true, Bool.not_false, Bool.false_eq_true, reduceIte, Option.isNone_none, Option.isNone_some, fill, tick, h0, h1, h2, h3]; rfl, fun h => by (cases h), fun _ => .inl (by rfl), fun h => (hno h3 h).elim⟩
  | none =>
  cases h4 : faults (s.ops + 1 + 1 + 1 + 1) with
  | some k => exact ⟨false, _, by simp only [copyOne, Bool.not_true, Bool.not_false, Bool.false_eq_true, reduceIte, Option.isNone_none, Option.isNone_some, fill, tick, h0, h1, h2, h3, h4]; rfl, fun h => by (cases h), fun _ => .inl (by rfl), fun h => (hno h4 h).elim⟩
  | none =>
  obtain ⟨ok, k, e, hok, hnf⟩ := pour_new (faults := faults)
    (s := { s with src := s.src.skip s.src.rest.length, dst := { s.dst with parts := s.dst.parts ++ [⟨entryName s.buf.name name, s.src.rest.length, []⟩] },
                   buf := { s.buf with data := s.src.rest, pos := 0 }, ops := s.ops + 1 + 1 + 1 + 1 + 1 }) (bs := s.src.rest) hf rfl
  cases ok with
  | false =>
    refine ⟨false, _, by simp only [copyOne, Bool.not_true, Bool.not_false, Bool.false_eq_true, reduceIte, Option.isNone_none, Option.isNone_some, fill, tick, h0, h1, h2, h3, h4, hbuf, nextFile_ready hw hf, List.drop_zero, e]; rfl, fun h => by (cases h), fun _ => .inr ⟨k, by rfl⟩, hnf⟩
  | true =>
  cases h5 : faults (s.ops + 1 + 1 + 1 + 1 + 1 + 1) with
  | some j =>
    exact ⟨false, _, by simp only [copyOne, Bool.not_true, Bool.not_false, Bool.false_eq_true, reduceIte, Option.isNone_none, Option.isNone_some, fill, tick, h0, h1, h2, h3, h4, hbuf, nextFile_ready hw hf, List.drop_zero, e, h5]; rfl, fun h => by (cases h), fun _ => .inr ⟨k, by rfl⟩,
      fun h => (hno h5 h).elim⟩
  | none =>
  cases h6 : faults (s.ops + 1 + 1 + 1 + 1 + 1 + 1 + 1) with
  | some j =>
    exact ⟨false, _, by simp only [copyOne, Bool.not_true, Bool.not_false, Bool.false_eq_true, reduceIte, Option.isNone_none, Option.isNone_some, fill, tick, h0, h1, h2, h3, h4, hbuf, nextFile_ready hw hf, List.drop_zero, e, h5, h6]; rfl, fun h => by (cases h), fun _ => .inr ⟨k, by rfl⟩,
      fun h => (hno h6 h).elim⟩
  | none =>
    refine ⟨true, _, by simp only [copyOne, Bool.not_true, Bool.not_false, Bool.false_eq_true, reduceIte, Option.isNone_none, Option.isNone_some, fill, tick, h0, h1, h2, h3, h4, hbuf, nextFile_ready hw hf, List.drop_zero, e, h5, h6]; rfl, fun _ => ⟨?_, by rfl, by exact hbs⟩, fun h => by (cases h), fun _ => rfl⟩
    simp only [hok rfl]

theorem added_nil {old : List (Str × Bytes)} : Added old [] true old := by simp [Added]

theorem added_fail {old new : List (Str × Bytes)} : Added old new false old := by
  simp only [Added, Bool.false_eq_true, if_false]
  exact ⟨[], new, [], rfl, by simp, .inl rfl⟩

theorem added_part {old : List (Str × Bytes)} {n : Str} {bs : Bytes} {rest : List (Str × Bytes)} (k : Nat) : Added old ((n, bs) :: rest) false (old ++ [(n, bs.take k)]) := by
  simp only [Added, Bool.false_eq_true, if_false]
  exact ⟨[], _, [(n, bs.take k)], rfl, by simp, .inr ⟨n, bs, k, rest, rfl, rfl⟩⟩

theorem added_cons {old new got : List (Str × Bytes)} {x : Str × Bytes} {ok : Bool} (h : Added (old ++ [x]) new ok got) : Added old (x :: new) ok got := by
  simp only [Added] at h ⊢
  cases ok with
  | true => simpa using h
  | false =>
    simp only [Bool.false_eq_true, if_false] at h ⊢
    obtain ⟨done, rest, last, rfl, h2, h3⟩ := h
    exact ⟨x :: done, rest, last, rfl, by simpa using h2, h3⟩

theorem contents_add (w : Writer) (n : Str) (size : Nat) (bs : Bytes) : contents { w with parts := w.parts ++ [⟨n, size, bs⟩] } = contents w ++ [(n, bs)] := by
  simp [contents]

/-- The loop of `copyBuffer`. -/
theorem copyLoop_spec {faults : Faults} {xs : List (Str × Bytes)} {fuel : Nat} {s : CState} (hx : s.src.left = xs) (hfuel : xs.length + 1 ≤ fuel) (hw : Ready s.dst) (hf : s.dst.format ≠ .gzip)
    (hb : s.buf.data = []) (hp : s.buf.pos = 0) :
    ∃ ok s', copyLoop faults fuel s = (ok, s') ∧ Added (contents s.dst) (xs.map fun x => (entryName s.buf.name x.1, x.2)) ok (contents s'.dst) ∧ s'.dst.format = s.dst.format ∧
      (ok = true → Ready s'.dst) ∧ (NoFaults faults → ok = true) := by
  have hno : ∀ {i k}, faults i = some k → NoFaults faults → False := fun h h' => by rw [h'] at h; cases h
  induction xs generalizing fuel s with
  | nil =>
    obtain ⟨fuel, rfl⟩ : ∃ n, fuel = n + 1 := ⟨fuel - 1, by omega⟩
    obtain ⟨r, hr⟩ := next_eof hx
    cases h0 : faults s.ops with
    | some k => exact ⟨false, _, by simp only [copyLoop, Bool.not_true, Bool.not_false, Bool.false_eq_true, reduceIte, Option.isNone_none, Option.isNone_some, tick, h0]; rfl, by exact added_fail, by rfl, fun h => by (cases h), fun h => (hno h0 h).elim⟩
    | none => exact ⟨true, _, by simp only [copyLoop, Bool.not_true, Bool.not_false, Bool.false_eq_true, reduceIte, Option.isNone_none, Option.isNone_some, tick, h0, hr]; rfl, by exact added_nil, by rfl, fun _ => by exact hw, fun _ => rfl⟩
  | cons x xs ih =>
    obtain ⟨fuel, rfl⟩ : ∃ n, fuel = n + 1 := ⟨fuel - 1, by omega⟩
    obtain ⟨n, bs⟩ := x
    obtain ⟨r, hr, hrest, hleft⟩ := next_file hx
    cases h0 : faults s.ops with
    | some k => exact ⟨false, _, by simp only [copyLoop, Bool.not_true, Bool.not_false, Bool.false_eq_true, reduceIte, Option.isNone_none, Option.isNone_some, tick, h0]; rfl, by exact added_fail, by rfl, fun h => by (cases h), fun h => (hno h0 h).elim⟩
    | none =>
      obtain ⟨ok, s1, e, h1, h2, h3⟩ := copyOne_spec (faults := faults) (s := { s with src := r, ops := s.ops + 1 }) hw hf hb hp n
      cases ok with
      | false =>
        refine ⟨false, s1, by simp only [copyLoop, Bool.not_true, Bool.not_false, Bool.false_eq_true, reduceIte, Option.isNone_none, Option.isNone_some, tick, h0, hr, e], ?_, ?_, fun h => by (cases h), h3⟩
        · rcases h2 rfl with h2 | ⟨k, h2⟩
          · rw [h2]; exact added_fail
          · rw [h2, contents_add]; simp only [hrest]; exact added_part k
        · rcases h2 rfl with h2 | ⟨k, h2⟩ <;> rw [h2]
      | true =>
        obtain ⟨g1, g2, g3⟩ := h1 rfl
        simp only [hrest] at g1 g2 g3
        obtain ⟨ok', s2, e2, k1, k2, k3, k4⟩ := ih (fuel := fuel) (s := s1) (by rw [g2, hleft]) (by simp only [List.length_cons] at hfuel; omega) (by rw [g1]; exact ready_add hw _ _)
          (by rw [g1]; exact hf) (by rw [g3]; exact hb) (by rw [g3]; exact hp)
        refine ⟨ok', s2, by simp only [copyLoop, Bool.not_true, Bool.not_false, Bool.false_eq_true, reduceIte, Option.isNone_none, Option.isNone_some, tick, h0, hr, e]; exact e2, ?_, by rw [k2, g1], k3, k4⟩
        rw [g1, contents_add, g3] at k1
        exact added_cons k1

theorem copyBuffer_spec {faults : Faults} (b : Str) {src : Reader} {w : Writer} (hw : Ready w) (hf : w.format ≠ .gzip) :
    ∃ ok s', copyBuffer faults b w src = (ok, s') ∧ Added (contents w) (src.left.map fun x => (entryName b x.1, x.2)) ok (contents s'.dst) ∧ s'.dst.format = w.format ∧
      (ok = true → Ready s'.dst) ∧ (NoFaults faults → ok = true) := by
  cases h0 : faults 0 with
  | some k => exact ⟨false, _, by simp only [copyBuffer, Bool.not_true, Bool.not_false, Bool.false_eq_true, reduceIte, Option.isNone_none, Option.isNone_some, tick, h0]; rfl, by exact added_fail, by rfl, fun h => by (cases h), fun h => by rw [h] at h0; cases h0⟩
  | none =>
    obtain ⟨ok, s', e, h⟩ := copyLoop_spec (faults := faults) (s := { src, dst := w, buf := { name := b }, ops := 1 }) rfl (turns_left src) hw hf rfl rfl
    exact ⟨ok, s', by simp only [copyBuffer, Bool.not_true, Bool.not_false, Bool.false_eq_true, reduceIte, Option.isNone_none, Option.isNone_some, tick, h0]; exact e, h⟩

theorem copyTar_spec {faults : Faults} {es : List Entry} {s : CState} (hw : Ready s.dst) (hf : s.dst.format = .tar) :
    ∃ ok s', copyTar faults es s = (ok, s') ∧ Added (contents s.dst) (pairs (es.filter fun e => !e.isDir)) ok (contents s'.dst) ∧ s'.dst.format = s.dst.format ∧
      (ok = true → Ready s'.dst) ∧ (NoFaults faults → ok = true) := by
  have hno : ∀ {i k}, faults i = some k → NoFaults faults → False := fun h h' => by rw [h'] at h; cases h
  induction es generalizing s with
  | nil =>
    cases h0 : faults s.ops with
    | some k => exact ⟨false, _, by simp only [copyTar, Bool.not_true, Bool.not_false, Bool.false_eq_true, reduceIte, Option.isNone_none, Option.isNone_some, tick, h0]; rfl, by exact added_fail, by rfl, fun h => by (cases h), fun h => (hno h0 h).elim⟩
    | none => exact ⟨true, _, by simp only [copyTar, Bool.not_true, Bool.not_false, Bool.false_eq_true, reduceIte, Option.isNone_none, Option.isNone_some, tick, h0]; rfl, by exact added_nil, by rfl, fun _ => by exact hw, fun _ => rfl⟩
  | cons x es ih =>
    cases h0 : faults s.ops with
    | some k => exact ⟨false, _, by simp only [copyTar, Bool.not_true, Bool.not_false, Bool.false_eq_true, reduceIte, Option.isNone_none, Option.isNone_some, tick, h0]; rfl, by exact added_fail, by rfl, fun h => by (cases h), fun h => (hno h0 h).elim⟩
    | none =>
      cases hd : x.isDir with
      | true =>
        obtain ⟨ok, s', e, h⟩ := ih (s := { s with ops := s.ops + 1 }) hw hf
        refine ⟨ok, s', by simp only [copyTar, Bool.not_true, Bool.not_false, Bool.false_eq_true, reduceIte, Option.isNone_none, Option.isNone_some, tick, h0, hd]; exact e, ?_⟩
        rw [List.filter_cons_of_neg (by simp [hd])]
        exact h
      | false =>
        rw [List.filter_cons_of_pos (by simp [hd])]
        cases h1 : faults (s.ops + 1) with
        | some k => exact ⟨false, _, by simp only [copyTar, Bool.not_true, Bool.not_false, Bool.false_eq_true, reduceIte, Option.isNone_none, Option.isNone_some, tick, h0, hd, h1]; rfl, by exact added_fail, by rfl, fun h => by (cases h), fun h => (hno h1 h).elim⟩
        | none =>
          obtain ⟨ok, k, e, hok, hnf⟩ := pour_new (faults := faults) (w := s.dst)
            (s := { s with dst := { s.dst with parts := s.dst.parts ++ [⟨x.name, x.data.length, []⟩] }, ops := s.ops + 1 + 1 }) (bs := x.data) (by rw [hf]; simp) rfl
          cases ok with
          | false =>
            refine ⟨false, _, by simp only [copyTar, Bool.not_true, Bool.not_false, Bool.false_eq_true, reduceIte, Option.isNone_none, Option.isNone_some, tick, h0, hd, h1, all_last hw, if_true, e]; rfl, ?_, by rfl, fun h => by (cases h), hnf⟩
            simp only [contents_add]
            exact added_part k
          | true =>
            obtain ⟨ok', s2, e2, k1, k2, k3, k4⟩ := ih (s := { s with dst := { s.dst with parts := s.dst.parts ++ [⟨x.name, x.data.length, x.data.take k⟩] }, ops := s.ops + 1 + 1 + 1 })
              (by simp only [hok rfl]; exact ready_add hw _ _) hf
            refine ⟨ok', s2, by simp only [copyTar, Bool.not_true, Bool.not_false, Bool.false_eq_true, reduceIte, Option.isNone_none, Option.isNone_some, tick, h0, hd, h1, all_last hw, if_true, e]; exact e2, ?_, k2, k3, k4⟩
            simp only [hok rfl, contents_add] at k1
            exact added_cons k1

theorem copyZip_spec {faults : Faults} {es : List Entry} {s : CState} (hw : Ready s.dst) (hf : s.dst.format = .zip) :
    ∃ ok s', copyZip faults es s = (ok, s') ∧ Added (contents s.dst) (pairs es) ok (contents s'.dst) ∧ s'.dst.format = s.dst.format ∧
      (ok = true → Ready s'.dst) ∧ (NoFaults faults → ok = true) := by
  have hno : ∀ {i k}, faults i = some k → NoFaults faults → False := fun h h' => by rw [h'] at h; cases h
  induction es generalizing s with
  | nil => exact ⟨true, _, rfl, added_nil, rfl, fun _ => hw, fun _ => rfl⟩
  | cons x es ih =>
    cases h0 : faults s.ops with
    | some k => exact ⟨false, _, by simp only [copyZip, Bool.not_true, Bool.not_false, Bool.false_eq_true, reduceIte, Option.isNone_none, Option.isNone_some, tick, h0]; rfl, by exact added_fail, by rfl, fun h => by (cases h), fun h => (hno h0 h).elim⟩
    | none =>
      cases h1 : faults (s.ops + 1) with
      | some k => exact ⟨false, _, by simp only [copyZip, Bool.not_true, Bool.not_false, Bool.false_eq_true, reduceIte, Option.isNone_none, Option.isNone_some, tick, h0, h1]; rfl, by exact added_fail, by rfl, fun h => by (cases h), fun h => (hno h1 h).elim⟩
      | none =>
        obtain ⟨ok, k, e, hok, hnf⟩ := pour_new (faults := faults) (w := s.dst)
          (s := { s with dst := { s.dst with parts := s.dst.parts ++ [⟨x.name, x.data.length, []⟩] }, ops := s.ops + 1 + 1 }) (bs := x.data) (by rw [hf]; simp) rfl
        cases ok with
        | false =>
          refine ⟨false, _, by simp only [copyZip, Bool.not_true, Bool.not_false, Bool.false_eq_true, reduceIte, Option.isNone_none, Option.isNone_some, tick, h0, h1, e]; rfl, ?_, by rfl, fun h => by (cases h), hnf⟩
          simp only [contents_add]
          exact added_part k
        | true =>
          obtain ⟨ok', s2, e2, k1, k2, k3, k4⟩ := ih (s := { s with dst := { s.dst with parts := s.dst.parts ++ [⟨x.name, x.data.length, x.data.take k⟩] }, ops := s.ops + 1 + 1 + 1 })
            (by simp only [hok rfl]; exact ready_add hw _ _) hf
          refine ⟨ok', s2, by simp only [copyZip, Bool.not_true, Bool.not_false, Bool.false_eq_true, reduceIte, Option.isNone_none, Option.isNone_some, tick, h0, h1, e]; exact e2, ?_, k2, k3, k4⟩
          simp only [hok rfl, contents_add] at k1
          exact added_cons k1

theorem fresh_left {r : Reader} {es : List Entry} (h : Fresh r es) : r.left = pairs es := by
  induction h with
  | tar => rfl
  | zip => rfl
  | gzip => rfl
  | nop _ ih => exact ih

/-- Pouring into a gzip file. -/
theorem pour_gzip {faults : Faults} {s : CState} {w : Writer} {bs : Bytes} (hw : w.format = .gzip) (hs : s.dst = w) :
    ∃ ok s', pour faults s bs = (ok, s') ∧ (ok = true → s' = { s with dst := { w with raw := w.raw ++ bs }, ops := s.ops + 1 }) ∧ (NoFaults faults → ok = true) := by
  subst hs
  cases hfa : faults s.ops with
  | none => exact ⟨true, _, by simp only [pour, hfa, Writer.room, hw, Nat.le_refl, if_true]; rfl, fun _ => by simp [Writer.write, hw], fun _ => rfl⟩
  | some k => exact ⟨false, _, by simp only [pour, hfa]; rfl, fun h => by (cases h), fun h => by rw [h] at hfa; cases hfa⟩

/-- One turn of the loop into a gzip file. -/
theorem copyOne_gzip {faults : Faults} {s : CState} (hw : s.dst.format = .gzip) (hb : s.buf.data = []) (hp : s.buf.pos = 0) (name : Str) :
    ∃ ok s', copyOne faults s name = (ok, s') ∧
    (ok = true → s.dst.noMoreFiles = false ∧ s'.dst = { s.dst with noMoreFiles := true, raw := s.dst.raw ++ s.src.rest } ∧ s'.src = s.src.skip s.src.rest.length ∧ s'.buf = s.buf) ∧
    (NoFaults faults → s.dst.noMoreFiles = false → ok = true) := by
  have hbuf : ∀ bs, s.buf.write bs = { s.buf with data := bs, pos := bs.length } := by
    intro bs
    simp [Buf.write, hb, hp]
  have hbs : ({ name := s.buf.name, data := [], pos := 0 } : Buf) = s.buf := by rw [← hb, ← hp]
  have hno : ∀ {i k}, faults i = some k → NoFaults faults → False := fun h h' => by rw [h'] at h; cases h
  cases h0 : faults s.ops with
  | some k => exact ⟨false, _, by simp only [copyOne, Bool.not_true, Bool.not_false, Bool.false_eq_true, reduceIte, Option.isNone_none, Option.isNone_some, fill, h0]; rfl, fun h => by (cases h), fun h => (hno h0 h).elim⟩
  | none =>
  cases h1 : faults (s.ops + 1) with
  | some k => exact ⟨false, _, by simp only [copyOne, Bool.not_true, Bool.not_false, Bool.false_eq_true, reduceIte, Option.isNone_none, Option.isNone_some, fill, tick, h0, h1]; rfl, fun h => by (cases h), fun h => (hno h1 h).elim⟩
  | none =>
  cases h2 : faults (s.ops + 1 + 1) with
  | some k => exact ⟨false, _, by simp only [copyOne, Bool.not_true, Bool.not_false, Bool.false_eq_true, reduceIte, Option.isNone_none, Option.isNone_some, fill, tick, h0, h1, h2]; rfl, fun h => by (cases h), fun h => (hno h2 h).elim⟩
  | none =>
  cases h3 : faults (s.ops + 1 + 1 + 1) with
  | some k => exact ⟨false, _, by simp only [copyOne, Bool.not_true, Bool.not_false, Bool.false_eq_true, reduceIte, Option.isNone_none, Option.isNone_some, fill, tick, h0, h1, h2, h3]; rfl, fun h => by (cases h), fun h => (hno h3 h).elim⟩
  | none =>
  cases h4 : faults (s.ops + 1 + 1 + 1 + 1) with
  | some k => exact ⟨false, _, by simp only [copyOne, Bool.not_true, Bool.not_false, Bool.false_eq_true, reduceIte, Option.isNone_none, Option.isNone_some, fill, tick, h0, h1, h2, h3, h4]; rfl, fun h => by (cases h), fun h => (hno h4 h).elim⟩
  | none =>
  cases hm : s.dst.noMoreFiles with
  | true =>
    have hnf : ∀ b n k, s.dst.nextFile b n k = none := fun b n k => by simp [Writer.nextFile, hw, hm]
    exact ⟨false, _, by simp only [copyOne, Bool.not_true, Bool.not_false, Bool.false_eq_true, reduceIte, Option.isNone_none, Option.isNone_some, fill, tick, h0, h1, h2, h3, h4, hnf]; rfl, fun h => by (cases h), fun _ h => by (cases h)⟩
  | false =>
  have hnf : ∀ b n k, s.dst.nextFile b n k = some { s.dst with noMoreFiles := true } := fun b n k => by simp [Writer.nextFile, hw, hm]
  obtain ⟨ok, s1, e, hok, hnf'⟩ := pour_gzip (faults := faults) (w := { s.dst with noMoreFiles := true })
    (s := { s with src := s.src.skip s.src.rest.length, dst := { s.dst with noMoreFiles := true },
                   buf := { s.buf with data := s.src.rest, pos := 0 }, ops := s.ops + 1 + 1 + 1 + 1 + 1 }) (bs := s.src.rest) hw rfl
  cases ok with
  | false =>
    exact ⟨false, _, by simp only [copyOne, Bool.not_true, Bool.not_false, Bool.false_eq_true, reduceIte, Option.isNone_none, Option.isNone_some, fill, tick, h0, h1, h2, h3, h4, hbuf, hnf, List.drop_zero, e]; rfl, fun h => by (cases h), fun h _ => hnf' h⟩
  | true =>
  have := hok rfl
  subst this
  cases h5 : faults (s.ops + 1 + 1 + 1 + 1 + 1 + 1) with
  | some j =>
    exact ⟨false, _, by simp only [copyOne, Bool.not_true, Bool.not_false, Bool.false_eq_true, reduceIte, Option.isNone_none, Option.isNone_some, fill, tick, h0, h1, h2, h3, h4, hbuf, hnf, List.drop_zero, e, h5]; rfl, fun h => by (cases h),
      fun h => (hno h5 h).elim⟩
  | none =>
  cases h6 : faults (s.ops + 1 + 1 + 1 + 1 + 1 + 1 + 1) with
  | some j =>
    exact ⟨false, _, by simp only [copyOne, Bool.not_true, Bool.not_false, Bool.false_eq_true, reduceIte, Option.isNone_none, Option.isNone_some, fill, tick, h0, h1, h2, h3, h4, hbuf, hnf, List.drop_zero, e, h5, h6]; rfl, fun h => by (cases h),
      fun h => (hno h6 h).elim⟩
  | none =>
    exact ⟨true, _, by simp only [copyOne, Bool.not_true, Bool.not_false, Bool.false_eq_true, reduceIte, Option.isNone_none, Option.isNone_some, fill, tick, h0, h1, h2, h3, h4, hbuf, hnf, List.drop_zero, e, h5, h6]; rfl,
      fun _ => ⟨rfl, by rfl, by rfl, by exact hbs⟩, fun _ _ => rfl⟩

theorem copyLoop_full {faults : Faults} {xs : List (Str × Bytes)} {fuel : Nat} {s : CState} (hx : s.src.left = xs) (hfuel : xs.length + 1 ≤ fuel) (hw : s.dst.format = .gzip)
    (hb : s.buf.data = []) (hp : s.buf.pos = 0) (hm : s.dst.noMoreFiles = true) :
    ∃ ok s', copyLoop faults fuel s = (ok, s') ∧ (ok = true → xs = [] ∧ s'.dst = s.dst) ∧ (NoFaults faults → xs = [] → ok = true) := by
  have hno : ∀ {i k}, faults i = some k → NoFaults faults → False := fun h h' => by rw [h'] at h; cases h
  obtain ⟨fuel, rfl⟩ : ∃ n, fuel = n + 1 := ⟨fuel - 1, by omega⟩
  cases h0 : faults s.ops with
  | some k => exact ⟨false, _, by simp only [copyLoop, Bool.not_true, Bool.not_false, Bool.false_eq_true, reduceIte, Option.isNone_none, Option.isNone_some, tick, h0]; rfl, fun h => by (cases h), fun h => (hno h0 h).elim⟩
  | none =>
    cases xs with
    | nil =>
      obtain ⟨r, hr⟩ := next_eof hx
      exact ⟨true, _, by simp only [copyLoop, Bool.not_true, Bool.not_false, Bool.false_eq_true, reduceIte, Option.isNone_none, Option.isNone_some, tick, h0, hr]; rfl, fun _ => ⟨rfl, by rfl⟩, fun _ _ => rfl⟩
    | cons x xs =>
      obtain ⟨n, bs⟩ := x
      obtain ⟨r, hr, hrest, hleft⟩ := next_file hx
      obtain ⟨ok, s1, e, h1, h2⟩ := copyOne_gzip (faults := faults) (s := { s with src := r, ops := s.ops + 1 }) hw hb hp n
      cases ok with
      | true => exact absurd (h1 rfl).1 (by simp [hm])
      | false => exact ⟨false, _, by simp only [copyLoop, Bool.not_true, Bool.not_false, Bool.false_eq_true, reduceIte, Option.isNone_none, Option.isNone_some, tick, h0, hr, e]; rfl, fun h => by (cases h), fun _ h => by (cases h)⟩

/-- `copyBuffer` into a gzip file. -/
theorem copyGzip_spec {faults : Faults} (b : Str) {src : Reader} :
    ∃ ok s', copyBuffer faults b { format := .gzip } src = (ok, s') ∧ (ok = true → src.left.length ≤ 1 ∧ s'.dst.raw = (src.left.map (·.2)).flatten) ∧
      (NoFaults faults → src.left.length ≤ 1 → ok = true) := by
  have hno : ∀ {i k}, faults i = some k → NoFaults faults → False := fun h h' => by rw [h'] at h; cases h
  cases h0 : faults 0 with
  | some k => exact ⟨false, _, by simp only [copyBuffer, Bool.not_true, Bool.not_false, Bool.false_eq_true, reduceIte, Option.isNone_none, Option.isNone_some, tick, h0]; rfl, fun h => by (cases h), fun h => (hno h0 h).elim⟩
  | none =>
    have hcb : copyBuffer faults b { format := .gzip } src = copyLoop faults src.turns { src, dst := { format := .gzip }, buf := { name := b }, ops := 1 } := by
      simp only [copyBuffer, Bool.not_true, Bool.not_false, Bool.false_eq_true, reduceIte, Option.isNone_none, Option.isNone_some, tick, h0]
    rw [hcb]
    have ht := turns_left src
    obtain ⟨fuel, hfuel⟩ : ∃ n, src.turns = n + 1 := ⟨src.turns - 1, by omega⟩
    rw [hfuel] at ht ⊢
    cases h1 : faults 1 with
    | some k => exact ⟨false, _, by simp only [copyLoop, Bool.not_true, Bool.not_false, Bool.false_eq_true, reduceIte, Option.isNone_none, Option.isNone_some, tick, h1]; rfl, fun h => by (cases h), fun h => (hno h1 h).elim⟩
    | none =>
      cases hx : src.left with
      | nil =>
        obtain ⟨r, hr⟩ := next_eof hx
        exact ⟨true, _, by simp only [copyLoop, Bool.not_true, Bool.not_false, Bool.false_eq_true, reduceIte, Option.isNone_none, Option.isNone_some, tick, h1, hr]; rfl, fun _ => ⟨by simp, by rfl⟩, fun _ _ => rfl⟩
      | cons x xs =>
        rw [hx] at ht
        obtain ⟨n, bs⟩ := x
        obtain ⟨r, hr, hrest, hleft⟩ := next_file hx
        obtain ⟨ok, s1, e, g1, g2⟩ := copyOne_gzip (faults := faults) (s := { src := r, dst := { format := .gzip }, buf := { name := b }, ops := 1 + 1 }) rfl rfl rfl n
        cases ok with
        | false =>
          exact ⟨false, _, by simp only [copyLoop, Bool.not_true, Bool.not_false, Bool.false_eq_true, reduceIte, Option.isNone_none, Option.isNone_some, tick, h1, hr, e]; rfl, fun h => by (cases h), fun h _ => g2 h rfl⟩
        | true =>
          obtain ⟨_, k1, k2, k3⟩ := g1 rfl
          simp only [hrest] at k1 k2 k3
          obtain ⟨ok', s2, e2, l1, l2⟩ := copyLoop_full (faults := faults) (fuel := fuel) (s := s1) (xs := xs) (by rw [k2, hleft]) (by simp only [List.length_cons] at ht; omega) (by rw [k1])
            (by rw [k3]) (by rw [k3]) (by rw [k1])
          refine ⟨ok', s2, by simp only [copyLoop, Bool.not_true, Bool.not_false, Bool.false_eq_true, reduceIte, Option.isNone_none, Option.isNone_some, tick, h1, hr, e]; exact e2, fun h => ?_, fun h hlen => l2 h ?_⟩
          · obtain ⟨rfl, hd⟩ := l1 h
            exact ⟨by simp, by rw [hd, k1]; simp⟩
          · cases xs with
            | nil => rfl
            | cons y ys => simp at hlen

end Archive
end Log4g
