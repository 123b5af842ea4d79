import Verif.Lemmas.World

/-! # A sample program, used to show that hypotheses can be met -/

namespace Log4g.Demo

/-- A configuration with two loggers, one output and one format. -/
def cfg : Config where
  formats := [some [(c!"name", c!"f1"), (c!"type", c!"text")]]
  outputs := [some [(c!"name", c!"o1"), (c!"type", c!"console"), (c!"format", c!"f1")],
              some [(c!"name", c!"o2"), (c!"type", c!"console"), (c!"format", c!"f1")]]
  loggers := [⟨c!"root", c!"warn", [c!"o1"]⟩, ⟨c!"a", c!"debug", []⟩, ⟨c!"x", c!"info", [c!"o2", c!"o1"]⟩]

/-- The library after its `init`: creators are registered; layouts want functions (flag 2). -/
def acts0 : List Act :=
  [.registerFormatter c!"text" (fun _ _ => .ok 2), .registerOutput c!"console" (fun _ _ => .ok ())]

/-- Then the configuration is set and four loggers are obtained. -/
def acts : List Act :=
  acts0 ++ [.setConfig cfg [], .getLogger c!"a/b", .getLogger c!"a", .getLogger c!"x", .getLogger c!"root"]

def run (w : World) (as : List Act) : World := as.foldl (fun w a => a.run w) w

/-- The worlds of the sample program. -/
def w0 : World := run {} acts0
def w1 : World := run {} acts

theorem w0_reach : Reach w0 := by
  have h1 : Reach {} := ⟨[], .refl _⟩
  have h2 := h1.act (a := .registerFormatter c!"text" (fun _ _ => .ok 2)) trivial
  exact h2.act (a := .registerOutput c!"console" (fun _ _ => .ok ())) trivial

theorem w1_steps : Steps {} acts w1 := by
  have h1 : Steps {} [] {} := .refl _
  have h2 := h1.tail (a := .registerFormatter c!"text" (fun _ _ => .ok 2)) trivial
  have h3 := h2.tail (a := .registerOutput c!"console" (fun _ _ => .ok ())) trivial
  have h4 := h3.tail (a := .setConfig cfg []) (List.Perm.refl _)
  have h5 := h4.tail (a := .getLogger c!"a/b") trivial
  have h6 := h5.tail (a := .getLogger c!"a") trivial
  have h7 := h6.tail (a := .getLogger c!"x") trivial
  exact h7.tail (a := .getLogger c!"root") trivial

theorem w1_reach : Reach w1 := ⟨_, w1_steps⟩

example : w1.loggers = [(c!"root", 0), (c!"a", 1), (c!"a/b", 2), (c!"x", 3)] := rfl
example : w1.heap = [⟨c!"root", 5, none, [0], 3, 2⟩, ⟨c!"a", 0, some 0, [], 3, 0⟩, ⟨c!"a/b", 0, some 1, [], 3, 0⟩, ⟨c!"x", 4, some 0, [1, 0], 3, 2⟩] := rfl

end Log4g.Demo
