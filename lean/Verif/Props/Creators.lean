import Verif.Lemmas.Creators
import Verif.Props.Demo

/-! # Property of registered creators: C109 -/

namespace Log4g
open Spec

/-- C109: an output of the library was made in some call of the program, by the creator registered last for its type before
that call, from its definition, and that creator returned no error. -/
theorem C109_outputs {as : List Act} {w : World} (h : Steps {} as w) {o : Nat} {c : CfgMap} {f : Option Nat}
    (ho : w.mgr.oheap[o]? = some ⟨.managed c, f⟩) :
    ∃ pre w1 w2, CallAfter as pre w1 w2 ∧ w1.mgr.oheap[o]? = none ∧ w2.mgr.oheap[o]? ≠ none ∧
      ∃ cr k, LastOutput pre (c.at c!"type") cr ∧ w1.mgr.calls ≤ k ∧ k < w2.mgr.calls ∧ cr k c = .ok () := by
  obtain ⟨pre, w1, w2, p, a, b, cr, k, g, r⟩ := (instance_made h).1 o c f ho
  have s := p.choose_spec.choose_spec.2.1
  exact ⟨pre, w1, w2, p, a, b, cr, k, ((creators_last s).1 _ _).mp g, r⟩

/-- C109 for formatters; `flag` is the caller information the formatter asks for. -/
theorem C109_formatters {as : List Act} {w : World} (h : Steps {} as w) {i : Nat} {c : CfgMap} {flag : Int}
    (hi : w.mgr.fheap[i]? = some ⟨c, flag⟩) :
    ∃ pre w1 w2, CallAfter as pre w1 w2 ∧ w1.mgr.fheap[i]? = none ∧ w2.mgr.fheap[i]? ≠ none ∧
      ∃ cr k, LastFormatter pre (c.at c!"type") cr ∧ w1.mgr.calls ≤ k ∧ k < w2.mgr.calls ∧ cr k c = .ok flag := by
  obtain ⟨pre, w1, w2, p, a, b, cr, k, g, r⟩ := (instance_made h).2 i c flag hi
  have s := p.choose_spec.choose_spec.2.1
  exact ⟨pre, w1, w2, p, a, b, cr, k, ((creators_last s).2 _ _).mp g, r⟩

/-- C109: a type for which nothing was registered yields no output, whatever the configuration. -/
theorem C109_unregistered {as : List Act} {w : World} (h : Steps {} as w) {t : Str} (hn : ∀ cr, Act.registerOutput t cr ∉ as)
    {o : Nat} {c : CfgMap} {f : Option Nat} (ho : w.mgr.oheap[o]? = some ⟨.managed c, f⟩) : c.at c!"type" ≠ t := by
  rintro rfl
  obtain ⟨pre, _, _, ⟨_, _, e, _⟩, _, _, cr, _, ⟨p, q, e', _⟩, _⟩ := C109_outputs h ho
  exact hn cr (by rw [e, e']; simp)

/-- The sample program has an output of the type console and registered a creator for it. -/
example : Demo.w1.mgr.oheap[0]? = some ⟨.managed (some [(c!"name", c!"o1"), (c!"type", c!"console"), (c!"format", c!"f1")]), some 0⟩ := rfl
example : ∃ cr, LastOutput Demo.acts0 c!"console" cr := ⟨_, [_], [], rfl, by simp⟩
example : Demo.w1.mgr.fheap[0]? = some ⟨some [(c!"name", c!"f1"), (c!"type", c!"text")], 2⟩ := rfl
example : ∀ cr, Act.registerOutput c!"size_rolling_file" cr ∉ Demo.acts := by
  intro cr h
  simp only [Demo.acts, Demo.acts0, List.cons_append, List.nil_append, List.mem_cons, List.not_mem_nil, or_false, reduceCtorEq, false_or] at h
  injection h with h _
  exact absurd h (by decide)

/-- Registering again: the second creator makes the output, and the first is never called (it would fail). -/
example : ∃ w, Steps {} [.registerFormatter c!"text" (fun _ _ => .ok 2), .registerOutput c!"console" (fun _ _ => .error c!"old"),
      .registerOutput c!"console" (fun _ _ => .ok ()), .setConfig Demo.cfg [], .getLogger c!"root"] w ∧ w.mgr.oheap.length = 1 ∧ w.mgr.calls = 2 := by
  have h1 : Steps {} [] {} := .refl _
  have h2 := h1.tail (a := .registerFormatter c!"text" (fun _ _ => .ok 2)) trivial
  have h3 := h2.tail (a := .registerOutput c!"console" (fun _ _ => .error c!"old")) trivial
  have h4 := h3.tail (a := .registerOutput c!"console" (fun _ _ => .ok ())) trivial
  have h5 := h4.tail (a := .setConfig Demo.cfg []) (List.Perm.refl _)
  exact ⟨_, h5.tail (a := .getLogger c!"root") trivial, rfl, rfl⟩

end Log4g
