import Verif.Lemmas.Stdout
import Verif.Props.System
import Verif.Lemmas.SignalFair

/-! # C125: what appears on the console -/

namespace Log4g
open Spec
open scoped List

variable {V : Type} {env : PEnv V} {up : Nat → Bool} {tr : List (PLab V)} {s : PState V} {screen : List (Nat × Bytes)}

/-- C125, synchronous outputs: what the output has printed is the lines of what was sent to it, each in one piece, in the order of each goroutine; and
the lines of calls that have returned are there. -/
theorem C125_sync (h : TExec env (newProgram up) tr s screen) {o : Nat} (ho : ConsoleOut env s.w o) {l : Level} {f : List Frame → Option (Formatter V)}
    (hc : SyncOut env s.w o l f) :
    ∃ written, printsOf o screen = linesOf env.lib l f written ∧
      ∀ t, shareOf t (calls written) <+: sentBy t o tr ∧ ∀ a b, tr = a ++ b → Returned t a → sentBy t o a <+: shareOf t (calls written) := by
  have hp := texec_pexec h
  obtain ⟨q, hq⟩ := pexec_sinv hp
  refine ⟨q o, ?_, fun t => ?_⟩
  · rw [(texec_inv h).2 o ho]
    unfold PState.given
    rw [sync_none hc]
    simp only
    rw [hq.wrote, sync_lines hc]
  · rw [hq.made]
    exact plain_order hp (sync_none hc) t

/-- C125, asynchronous outputs, whatever is closed: what the output has printed is the texts of batches of what was sent to it, each batch in one
piece, in the order of each goroutine. -/
theorem C125_async (h : TExec env (newProgram up) tr s screen) {o : Nat} (ho : ConsoleOut env s.w o) {cfg : ACfg V} (hc : AsyncOut env s.w o cfg) :
    ∃ (f : Formatter V) (batches : List (List (Event V))) (written : List (Nat × Event V)), cfg.f = some f ∧ printsOf o screen = batches.map (fun b => b.flatMap f) ∧
      (∀ b ∈ batches, b.length ≤ cfg.batchNum) ∧ batches.flatten = accepted cfg.t (written.map (·.2)) ∧ ∀ t, shareOf t written <+ sentBy t o tr := by
  have hp := texec_pexec h
  have hc := async_of hc
  have inv := pexec_inv hp
  obtain ⟨⟨f, hf⟩, _, hb, _⟩ := asyncOf_cfg inv.world hc
  obtain ⟨gs1, gs2, written, batch, waiting, e1, e2, e3, e4, e5, e6, e7, e8⟩ := written_groups hf hb (inv.proj o cfg hc) (w1 := []) (w2 := (s.a o).writes) (by simp)
  refine ⟨f, gs2, batch, hf, ?_, e6, e5, fun t => ?_⟩
  · rw [(texec_inv h).2 o ho]
    unfold PState.given
    rw [hc]
    exact e3
  · have := queued_logged hp hc t
    rw [e1, shareOf_append, shareOf_append] at this
    exact ((List.sublist_append_right _ _).trans (List.sublist_append_left _ _)).trans this

/-- C125: whatever appears on the console has been written by a console output, in one piece: the line of one event which a
synchronous output was sent, or the texts of a batch of events an asynchronous one was sent. -/
theorem C125_whole (h : TExec env (newProgram up) tr s screen) {o : Nat} {bs : Bytes} (hx : (o, bs) ∈ screen) : ConsoleOut env s.w o ∧
    ((∃ l f t e stack, SyncOut env s.w o l f ∧ e ∈ sentBy t o tr ∧ l ≤ e.level ∧ bs = textOf env.lib (f stack) e) ∨
      ∃ (cfg : ACfg V) (f : Formatter V) (es : List (Event V)), AsyncOut env s.w o cfg ∧ cfg.f = some f ∧ bs = es.flatMap f ∧ es.length ≤ cfg.batchNum ∧
        ∀ e ∈ es, cfg.t ≤ e.level ∧ ∃ t, e ∈ sentBy t o tr) := by
  have ho := (texec_inv h).1 _ hx
  have hmem : bs ∈ printsOf o screen := List.mem_map.mpr ⟨(o, bs), by simpa using hx, rfl⟩
  refine ⟨ho, ?_⟩
  obtain ⟨ob, k, h1, h2⟩ := ho
  have ho : ConsoleOut env s.w o := ⟨ob, k, h1, h2⟩
  cases k with
  | sync t =>
    refine .inl ?_
    have hc : SyncOut env s.w o t _ := ⟨ob, h1, fun _ => rfl, .inl h2⟩
    obtain ⟨written, h3, h4⟩ := C125_sync h ho hc
    rw [h3] at hmem
    obtain ⟨y, hy, rfl⟩ := List.mem_map.mp hmem
    obtain ⟨u, e, stack⟩ := y
    obtain ⟨hy, hl⟩ := List.mem_filter.mp hy
    refine ⟨t, _, u, e, stack, hc, (h4 u).1.subset ?_, by simpa using hl, rfl⟩
    exact List.mem_map.mpr ⟨(u, e), List.mem_filter.mpr ⟨List.mem_map.mpr ⟨_, hy, rfl⟩, by simp⟩, rfl⟩
  | async t q b =>
    refine .inr ?_
    have hs : ∃ cfg, s.w.asyncOf env o = some cfg := by
      unfold World.asyncOf
      rw [h1]
      simp only [h2]
      exact ⟨_, rfl⟩
    obtain ⟨cfg, hs⟩ := hs
    have hc := of_async (pexec_inv (texec_pexec h)).world hs
    obtain ⟨f, gs, written, h3, h4, h5, h6, h7⟩ := C125_async h ho hc
    rw [h4] at hmem
    obtain ⟨g, hg, rfl⟩ := List.mem_map.mp hmem
    refine ⟨cfg, f, g, hc, h3, rfl, h5 g hg, fun e he => ?_⟩
    have hin : e ∈ gs.flatten := List.mem_flatten.mpr ⟨g, hg, he⟩
    rw [h6] at hin
    obtain ⟨hin, hl⟩ := List.mem_filter.mp hin
    obtain ⟨⟨u, e'⟩, hy, rfl⟩ := List.mem_map.mp hin
    exact ⟨by simpa using hl, u, (h7 u).subset (List.mem_map.mpr ⟨(u, e'), List.mem_filter.mpr ⟨hy, by simp⟩, rfl⟩)⟩

/-- C125, order: at any moment some of it is on the console, and the rest comes below.  For every synchronous output, what is there
are the lines of calls that have begun, among them all of the goroutines that are in no call; and what comes below are, for these
goroutines, lines of later calls.  So the lines of calls that do not overlap are in the order of the calls, whichever outputs print them. -/
theorem C125_order (h : TExec env (newProgram up) tr s screen) {a b : List (PLab V)} (e : tr = a ++ b) :
    ∃ s1 above below, TExec env (newProgram up) a s1 above ∧ screen = above ++ below ∧
      ∀ o l f, ConsoleOut env s.w o → SyncOut env s.w o l f → ∃ done later, printsOf o above = linesOf env.lib l f done ∧ printsOf o below = linesOf env.lib l f later ∧
        ∀ t, shareOf t (calls done) <+: sentBy t o a ∧ (Returned t a → shareOf t (calls done) = sentBy t o a ∧ shareOf t (calls later) <+: sentBy t o b) := by
  subst e
  obtain ⟨s1, x, y, h1, h2, rfl⟩ := h.split
  refine ⟨s1, x, y, h1, rfl, fun o l f ho hc => ?_⟩
  have hp := texec_pexec h
  have hp1 := texec_pexec h1
  have inv := pexec_inv hp1
  obtain ⟨q, hq⟩ := pexec_sinv hp
  obtain ⟨q1, hq1⟩ := pexec_sinv hp1
  have hn := sync_none hc
  have ext := ext_exec inv h2
  have hn1 : s1.w.asyncOf env o = none := by
    by_cases hlt : o < s1.w.mgr.oheap.length
    · rw [← ext_asyncOf env inv.world ext hlt]; exact hn
    · unfold World.asyncOf
      rw [List.getElem?_eq_none (by omega)]
  have hx : printsOf o x = linesOf env.lib l f (q1 o) := by
    by_cases hlt : o < s1.w.mgr.oheap.length
    · have hc1 : ConsoleOut env s1.w o := by
        obtain ⟨ob, k, k1, k2⟩ := ho
        exact ⟨ob, k, by rw [← ext_oheap ext hlt]; exact k1, k2⟩
      rw [(texec_inv h1).2 o hc1]
      unfold PState.given
      rw [hn1]
      simp only
      rw [hq1.wrote, ← sync_lines hc]
      exact flatMap_same fun z hz => (ext_sendWrites env inv.world ext z.2.2 ⟨o, z.2.1⟩ hlt).symm
    · have hq0 : q1 o = [] := Classical.byContradiction fun hh => hlt (hq1.old o hh)
      rw [hq0]
      refine prints_none fun z hz he => hlt ?_
      obtain ⟨ob, k, k1, _⟩ := (texec_inv h1).1 z hz
      rw [he] at k1
      rcases Nat.lt_or_ge o s1.w.mgr.oheap.length with h | h
      · exact h
      · rw [List.getElem?_eq_none h] at k1; cases k1
  have hxy : printsOf o x ++ printsOf o y = linesOf env.lib l f (q o) := by
    rw [← printsOf_append, (texec_inv h).2 o ho]
    unfold PState.given
    rw [hn]
    simp only
    rw [hq.wrote, sync_lines hc]
  have hm := hq.made o
  rw [plainSends_append, ← hq1.made o] at hm
  obtain ⟨qa, qb, e1, e2, e3⟩ := List.map_eq_append_iff.mp hm
  have hlen : ∀ u v : List (Nat × Event V × List Frame), calls u = calls v → (linesOf env.lib l f u).length = (linesOf env.lib l f v).length := by
    intro u v huv
    have key : ∀ u : List (Nat × Event V × List Frame), (linesOf env.lib l f u).length = ((calls u).filter fun x => decide (l ≤ x.2.level)).length := by
      intro u
      unfold linesOf calls
      rw [List.length_map, List.filter_map, List.length_map]
      rfl
    rw [key, key, huv]
  rw [e1, show linesOf env.lib l f (qa ++ qb) = linesOf env.lib l f qa ++ linesOf env.lib l f qb by simp [linesOf], hx] at hxy
  obtain ⟨_, hy⟩ := List.append_inj hxy (hlen _ _ e2.symm)
  refine ⟨q1 o, qb, hx, hy, fun t => ?_⟩
  have k1 := hq1.order t o hn1
  rw [hq1.made o]
  refine ⟨⟨_, k1⟩, fun hr => ?_⟩
  have k := hq.order t o hn
  rw [at_rest hp1 hr] at k1
  simp only [toSend, List.filter_nil, List.map_nil, sendsOf, List.append_nil] at k1
  refine ⟨k1, ?_⟩
  rw [sentBy_append, plainSends_append, shareOf_append, List.append_assoc, k1] at k
  rw [show calls qb = plainSends o b from e3]
  exact ⟨_, List.append_cancel_left k⟩

/-! Cases: a program with two console outputs, one of them asynchronous; it logs a line and closes. -/

namespace Demo

def twice : Config where
  formats := [some [(c!"name", c!"f2"), (c!"type", c!"text"), (c!"layout", c!"%{msg}\n")]]
  outputs := [some [(c!"name", c!"a1"), (c!"type", c!"console"), (c!"async", c!"true"), (c!"queue_size", c!"2"), (c!"batch_num", c!"2"), (c!"format", c!"f2")],
              some [(c!"name", c!"c1"), (c!"type", c!"console"), (c!"format", c!"f2")]]
  loggers := [⟨c!"root", c!"all", [c!"a1", c!"c1"]⟩]

def wt : World := [Act.setConfig twice [], .getLogger c!"a"].foldl (fun w a => a.run w) (initWorld fun _ => false)

theorem wt_out : AsyncOut Demo.env wt 0 bcfg :=
  ⟨⟨.managed (some [(c!"name", c!"a1"), (c!"type", c!"console"), (c!"async", c!"true"), (c!"queue_size", c!"2"), (c!"batch_num", c!"2"), (c!"format", c!"f2")]), some 0⟩,
    2, 2, rfl, .inl rfl, rfl, rfl, rfl⟩

theorem wt_sync : SyncOut Demo.env wt 1 Level.All fun stack => wt.formatterOf lib stack Demo.env.other
    ⟨.managed (some [(c!"name", c!"c1"), (c!"type", c!"console"), (c!"format", c!"f2")]), some 0⟩ :=
  ⟨_, rfl, fun _ => rfl, .inl rfl⟩

theorem wt_fit : Fit wt := ⟨by rfl, by decide, async_of wt_out, by rfl, by decide +kernel, List.Perm.refl _⟩

theorem wt_begun : PExec Demo.env (newProgram fun _ => false) [.act (.setConfig twice []), .act (.getLogger c!"a")] { w := wt } := by
  have h0 : PExec Demo.env (newProgram fun _ => false) [] _ := .nil
  have h1 := h0.snoc ⟨rfl, .act (a := .setConfig twice []) (List.Perm.refl _) trivial (by simp [Act.panics]) (fun _ => rfl)⟩
  exact h1.snoc ⟨rfl, .act (a := .getLogger c!"a") trivial trivial (by simp [Act.panics]) (fun _ => rfl)⟩

end Demo

/- The hypotheses of the theorems above are met; both outputs have printed the line. -/
example : ∃ up tr s screen f, TExec Demo.env (newProgram up) tr s screen ∧ ConsoleOut Demo.env s.w 0 ∧ ConsoleOut Demo.env s.w 1 ∧ AsyncOut Demo.env s.w 0 Demo.bcfg ∧
    SyncOut Demo.env s.w 1 Level.All f ∧ sentBy 0 0 tr = [Demo.hi] ∧ printsOf 0 screen = [[104, 105, 10]] ∧ printsOf 1 screen = [[104, 105, 10]] ∧
    ∃ a b, tr = a ++ b ∧ Returned 0 a ∧ sentBy 0 1 a = [Demo.hi] := by
  obtain ⟨s, h, hr, h1, _, h2⟩ := Demo.tidy_run Demo.wt_fit
  have hp := Demo.wt_begun.trans h
  obtain ⟨screen, ht⟩ := pexec_texec hp
  have hw := hr.world
  have c0 : ConsoleOut Demo.env s.w 0 := by rw [hw]; exact ⟨_, _, rfl, rfl⟩
  have c1 : ConsoleOut Demo.env s.w 1 := by rw [hw]; exact ⟨_, _, rfl, rfl⟩
  refine ⟨_, _, s, screen, _, ht, c0, c1, by rw [hw]; exact Demo.wt_out, by rw [hw]; exact Demo.wt_sync, rfl, ?_, ?_,
    [.act (.setConfig Demo.twice []), .act (.getLogger c!"a")] ++ [.out 0 .begin] ++ Demo.logged, .close 1 [0, 1] :: Demo.closing ++ [.ret 1], by simp, Demo.logged_returned _, rfl⟩
  · rw [(texec_inv ht).2 0 c0]
    unfold PState.given
    rw [hw, Demo.wt_fit.async]
    simp only
    rw [h1, Demo.plain_hi]
  · rw [(texec_inv ht).2 1 c1]
    unfold PState.given
    rw [hw, Demo.wt_fit.none]
    exact h2

end Log4g
