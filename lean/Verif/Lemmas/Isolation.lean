import Verif.Spec.Isolation
import Verif.Lemmas.Handed
import Verif.Lemmas.Logger

/-! # Helpers for C133 -/

namespace Log4g
open Spec World

/-- The same logger, except for the caller skip. -/
def Near (l l' : Logger) : Prop := l'.name = l.name ∧ l'.level = l.level ∧ l'.parent = l.parent ∧ l'.outputs = l.outputs ∧ l'.callerInfoFlag = l.callerInfoFlag

theorem Near.refl (l : Logger) : Near l l := ⟨rfl, rfl, rfl, rfl, rfl⟩

theorem Near.trans {a b c : Logger} (h : Near a b) (k : Near b c) : Near a c :=
  ⟨k.1.trans h.1, k.2.1.trans h.2.1, k.2.2.1.trans h.2.2.1, k.2.2.2.1.trans h.2.2.2.1, k.2.2.2.2.trans h.2.2.2.2⟩

/-- The loggers of `ps` are the same, except for the caller skip. -/
def KeptPath (ps : List Str) (w w' : World) : Prop :=
  ∀ m ∈ ps, ∀ (r : Nat) l, Map.get w.loggers m = some r → w.heap[r]? = some l → ∃ l', w'.heap[r]? = some l' ∧ Near l l'

/-- The logger `n` is the same. -/
def SameSkip (n : Str) (w w' : World) : Prop :=
  ∀ (r : Nat) l, Map.get w.loggers n = some r → w.heap[r]? = some l → ∃ l', w'.heap[r]? = some l' ∧ l'.callerSkip = l.callerSkip

theorem decoded_hands' (d : Decoders) (bs : Bytes) (ext : Str) (order : List Nat) : Hands (.loadConfig d bs ext order) (Act.config.decoded d bs ext) := by
  unfold Act.config.decoded
  rw [show lowerExt ext = ext.map Char.toLower from rfl]
  simp only
  split
  · rename_i h; exact .yaml h
  · rename_i h
    simp only [not_or] at h
    split
    · rename_i h'; exact .json h'
    · rename_i h'; exact .other h.1 h.2 h'

theorem pathExt_cons {file : Str} {c : Char} {ext : Str} (h : pathExt file = c :: ext) :
    ∃ dir stem, file = dir ++ stem ++ '.' :: ext ∧ (dir = [] ∨ ∃ p, dir = p ++ ['/']) ∧ '/' ∉ stem ∧ '/' ∉ ext ∧ '.' ∉ ext := by
  obtain ⟨dir, base, e, hd, hb⟩ : ∃ dir base, file = dir ++ base ∧ (dir = [] ∨ ∃ p, dir = p ++ ['/']) ∧ '/' ∉ base := by
    rcases afterLast_spec '/' file with ⟨_, hn⟩ | ⟨d, rest, e, hn, _⟩
    · exact ⟨[], file, rfl, .inl rfl, hn⟩
    · exact ⟨d ++ ['/'], rest, by rw [e]; simp, .inr ⟨d, rfl⟩, hn⟩
  rcases afterLast_spec '.' base with ⟨_, hn⟩ | ⟨stem, ext', e', hn, _⟩
  · rw [(pathExt_nil file).mpr ⟨dir, base, e, hd, hb, hn⟩] at h
    cases h
  · subst e'
    simp only [List.mem_append, List.mem_cons, not_or] at hb
    have : file = dir ++ stem ++ '.' :: ext' := by rw [e]; simp
    subst this
    rw [pathExt_some hd hb.1 hb.2.2 hn] at h
    cases h
    exact ⟨dir, stem, rfl, hd, hb.1, hb.2.2, hn⟩

theorem setConfig_firm {n : Str} {ps : List Str} {w : World} (inv : WInv w) {a : Act} {cfg : Config} {order : List Nat} (hh : Hands a cfg) (hno : ¬ Concerns w n ps a)
    {m : Str} (hm : m ∈ ps) {r : Nat} {l : Logger} (hg : Map.get w.loggers m = some r) (hl : w.heap[r]? = some l) : (w.setConfig cfg order).2.heap[r]? = some l := by
  unfold setConfig
  split
  · exact hl
  · rename_i hv
    obtain ⟨i, _⟩ := withConfig_inv inv cfg
    refine notify_untouched i order (r := r) (l := l) hl ?_
    intro e he hn
    obtain ⟨l0, k1, k2⟩ := inv.named _ _ hg
    rw [hl] at k1
    cases k1
    exact hno (.config hh ((validateConfig_none_iff _).mp hv) he (by rw [hn, k2]; exact hm))

theorem act_kept {n : Str} {ps : List Str} (hn : n ∈ ps) {w : World} (inv : WInv w) {a : Act} (hno : ¬ Concerns w n ps a) : KeptPath ps w (a.run w) ∧ SameSkip n w (a.run w) := by
  have both : (∀ m ∈ ps, ∀ (r : Nat) l, Map.get w.loggers m = some r → w.heap[r]? = some l → (a.run w).heap[r]? = some l) → KeptPath ps w (a.run w) ∧ SameSkip n w (a.run w) :=
    fun h => ⟨fun m hm r l hg hl => ⟨l, h m hm r l hg hl, .refl l⟩, fun r l hg hl => ⟨l, h n hn r l hg hl, rfl⟩⟩
  cases a with
  | registerFormatter t f => exact both fun _ _ _ _ _ h => h
  | registerOutput t f => exact both fun _ _ _ _ _ h => h
  | queryOutputs name => exact both fun _ _ _ _ _ h => h
  | userOutput flag => exact both fun _ _ _ _ _ h => h
  | getLogger name => exact both fun _ _ r l _ h => get_firm inv name r l h
  | setConfig cfg order => exact both fun m hm r l hg hl => setConfig_firm inv .set hno hm hg hl
  | loadConfig d bs ext order => exact both fun m hm r l hg hl => setConfig_firm inv (decoded_hands' d bs ext order) hno hm hg hl
  | loadConfigFile d file read order =>
    refine both fun m hm r l hg hl => ?_
    simp only [Act.run]
    unfold loadConfigFile
    split
    · exact hl
    · rename_i bs
      split
      · exact hl
      · rename_i c ext hx
        obtain ⟨dir, stem, rfl, h1, h2, h3, h4⟩ := pathExt_cons hx
        exact setConfig_firm inv (.file h1 h2 h3 h4 (decoded_hands' d bs ext order)) hno hm hg hl
  | setLevel r' lvl =>
    refine both fun m hm r l hg hl => ?_
    show (w.update r' _).heap[r]? = _
    rw [update_heap, if_neg (by rintro rfl; exact hno (.level hm hg))]
    exact hl
  | setOutputs r' ops =>
    refine both fun m hm r l hg hl => ?_
    show (w.update r' _).heap[r]? = _
    rw [update_heap, if_neg (by rintro rfl; exact hno (.outputs hm hg))]
    exact hl
  | setCallerSkip r' k =>
    refine ⟨fun m hm r l hg hl => ?_, fun r l hg hl => ?_⟩
    · show ∃ l', (w.update r' _).heap[r]? = _ ∧ _
      rw [update_heap]
      split
      · rw [hl]; exact ⟨_, rfl, rfl, rfl, rfl, rfl, rfl⟩
      · exact ⟨l, hl, .refl l⟩
    · show ∃ l', (w.update r' _).heap[r]? = _ ∧ _
      rw [update_heap, if_neg (by rintro rfl; exact hno (.skip hg))]
      exact ⟨l, hl, rfl⟩

theorem steps_kept {n : Str} {ps : List Str} (hn : n ∈ ps) {w w' : World} (inv : WInv w) {as : List Act} (h : Steps w as w') (he : Elsewhere w n ps as) : KeptPath ps w w' ∧ SameSkip n w w' := by
  induction h with
  | refl => exact ⟨fun _ _ _ l _ hl => ⟨l, hl, .refl l⟩, fun _ l _ hl => ⟨l, hl, rfl⟩⟩
  | @tail w1 as a hs ok ih =>
    obtain ⟨i1, x1⟩ := steps_inv inv hs
    obtain ⟨k1, k2⟩ := ih fun as1 b as2 v e hv => he as1 b (as2 ++ [a]) v (by rw [e]; simp) hv
    obtain ⟨j1, j2⟩ := act_kept hn i1 (he as a [] w1 rfl hs)
    refine ⟨fun m hm r l hg hl => ?_, fun r l hg hl => ?_⟩
    · obtain ⟨l1, h1, n1⟩ := k1 m hm r l hg hl
      obtain ⟨l2, h2, n2⟩ := j1 m hm r l1 (x1.loggers _ _ hg) h1
      exact ⟨l2, h2, n1.trans n2⟩
    · obtain ⟨l1, h1, n1⟩ := k2 r l hg hl
      obtain ⟨l2, h2, n2⟩ := j2 r l1 (x1.loggers _ _ hg) h1
      exact ⟨l2, h2, n2.trans n1⟩

theorem KeptPath.sub {ps qs : List Str} {w w' : World} (h : KeptPath ps w w') (hs : ∀ m ∈ qs, m ∈ ps) : KeptPath qs w w' := fun m hm => h m (hs m hm)

theorem walk_kept {w w' : World} (inv : WInv w) {n : Str} {ps : List Str} (hp : Path n ps) (hk : KeptPath ps w w') {r : Nat} (h : Map.get w.loggers n = some r)
    {fuel fuel' : Nat} (hf : r < fuel) (hf' : r < fuel') : w'.levelWalk fuel' (some r) = w.levelWalk fuel (some r) := by
  induction hp generalizing r fuel fuel' with
  | root =>
    obtain ⟨l, h1, h2, h3⟩ := up_root inv h
    obtain ⟨l', h1', e⟩ := hk _ (.head _) r l h h1
    obtain ⟨fuel, rfl⟩ : ∃ f, fuel = f + 1 := ⟨fuel - 1, by omega⟩
    obtain ⟨fuel', rfl⟩ : ∃ f, fuel' = f + 1 := ⟨fuel' - 1, by omega⟩
    simp only [levelWalk, h1, h1', e.2.1, e.2.2.1, h3]
  | step hn hpar hps ih =>
    obtain ⟨l, rp, h1, h2, h3, h4, hg⟩ := up_step inv h hn hpar
    obtain ⟨l', h1', e⟩ := hk _ (.head _) r l h h1
    obtain ⟨fuel, rfl⟩ : ∃ f, fuel = f + 1 := ⟨fuel - 1, by omega⟩
    obtain ⟨fuel', rfl⟩ : ∃ f, fuel' = f + 1 := ⟨fuel' - 1, by omega⟩
    simp only [levelWalk, h1, h1', e.2.1, e.2.2.1, h3]
    rw [ih (hk.sub fun m hm => .tail _ hm) hg (fuel := fuel) (fuel' := fuel') (by omega) (by omega)]

theorem level_kept {w w' : World} (inv : WInv w) {n : Str} {ps : List Str} (hp : Path n ps) (hk : KeptPath ps w w') {r : Nat} (h : Map.get w.loggers n = some r) :
    w'.level r = w.level r := by
  obtain ⟨l, h1, _⟩ := inv.named _ _ h
  have hn : n ∈ ps := by cases hp <;> exact .head _
  obtain ⟨l', h1', _⟩ := hk _ hn r l h h1
  unfold World.level
  rw [walk_kept inv hp hk h (heap_lt h1) (heap_lt h1')]

theorem dispatch_near {V : Type} {l l' : Logger} (h : Near l l') (stack : List Frame) (now : Nat) (ctx : Ctx V) (name : Str) (skip : Int) (lvl : Level) (fmt : Str) (args : List V) :
    dispatch l' stack now ctx name skip lvl fmt args = dispatch l stack now ctx name skip lvl fmt args := by
  unfold dispatch
  rw [h.2.2.2.1, h.2.2.2.2]

theorem write_kept {V : Type} {w w' : World} (inv : WInv w) (now : Nat) {n : Str} {ps : List Str} (hp : Path n ps) (hk : KeptPath ps w w') {r : Nat} (h : Map.get w.loggers n = some r)
    {fuel fuel' : Nat} (hf : r < fuel) (hf' : r < fuel') (stack : List Frame) (ctx : Ctx V) (name : Str) (skip : Int) (lvl : Level) (fmt : Str) (args : List V) :
    w'.write now fuel' stack r ctx name skip lvl fmt args = w.write now fuel stack r ctx name skip lvl fmt args := by
  induction hp generalizing r fuel fuel' stack ctx skip with
  | root =>
    obtain ⟨l, h1, h2, h3⟩ := up_root inv h
    obtain ⟨l', h1', e⟩ := hk _ (.head _) r l h h1
    obtain ⟨fuel, rfl⟩ : ∃ f, fuel = f + 1 := ⟨fuel - 1, by omega⟩
    obtain ⟨fuel', rfl⟩ : ∃ f, fuel' = f + 1 := ⟨fuel' - 1, by omega⟩
    simp only [write, h1, h1', levelEnabled, level_kept inv .root hk h, e.2.2.2.1, e.2.2.1, h3, dispatch_near e]
  | step hn hpar hps ih =>
    obtain ⟨l, rp, h1, h2, h3, h4, hg⟩ := up_step inv h hn hpar
    obtain ⟨l', h1', e⟩ := hk _ (.head _) r l h h1
    obtain ⟨fuel, rfl⟩ : ∃ f, fuel = f + 1 := ⟨fuel - 1, by omega⟩
    obtain ⟨fuel', rfl⟩ : ∃ f, fuel' = f + 1 := ⟨fuel' - 1, by omega⟩
    simp only [write, h1, h1', levelEnabled, level_kept inv (.step hn hpar hps) hk h, e.2.2.2.1, e.2.2.1, h3, dispatch_near e]
    rw [ih (hk.sub fun m hm => .tail _ hm) hg (fuel := fuel) (fuel' := fuel') (by omega) (by omega)]

end Log4g
