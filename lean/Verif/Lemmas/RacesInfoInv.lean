import Verif.Lemmas.RacesInfo

/-! # Data races: caller information and the buffers of memory outputs, the invariant -/

namespace Log4g.Races
open Spec

variable {U : Nat → Nat → Prop} {tr : List Entry} {s : State} {γ : Who → Gh} {pub : Nat → Prop} {lim : Nat}
variable {σ : Nat → Shape} {φ : Nat → Option Fmt}

/-! ## Loggers -/

/-- A goroutine has a logger to itself (`w`), or reads it while nobody sets anything. -/
def Hold (tr : List Entry) (s : State) (lim : Nat) (w : Bool) (t : Who) (r : Nat) : Prop :=
  ∃ (p : Running), s.running t = some p ∧ (locked p.task ∧ s.owner .factory = some t ∧ (isGet p.task → lim ≤ r) ∨
    ¬ locked p.task ∧ (sets p.task = some r ∨ w = false ∧ isLog p.task) ∧
      ∃ (i : Nat) (a : Entry) (w' : Bool) (l : Loc), tr[i]? = some a ∧ a.act = .acc w' l ∧ fieldOf l = some r ∧ ¬ locked a.task)

/-- Two calls under way do not clash. -/
theorem no_clash (h : Core U tr s γ pub lim) (ho : Ordered U tr) {t t' : Who} {p p' : Running} (hp : s.running t = some p) (hp' : s.running t' = some p') (hne : t ≠ t')
    (hc : Clash p.task p'.task) : False := by
  obtain ⟨⟨b, h1, h2, h3, h4⟩, h5⟩ := h.runs t p hp
  obtain ⟨⟨b', h1', h2', h3', h4'⟩, h5'⟩ := h.runs t' p' hp'
  rcases ho p.cid p'.cid b b' ⟨h1, h2⟩ ⟨h1', h2'⟩ (by rw [h3, h3']; exact hne) (by rw [h4, h4']; exact hc) with h | h
  · obtain ⟨k, e, res, k1, k2, k3, -⟩ := h
    exact h5 k e res k1 k3 k2
  · obtain ⟨k, e, res, k1, k2, k3, -⟩ := h
    exact h5' k e res k1 k3 k2

theorem locked_cases {c : Task} (h : locked c) : isGet c ∨ ∃ cfg ord, c = .setConfig cfg ord := by
  cases c <;> simp [locked, isGet] at h ⊢

theorem isLog_cases {c : Task} (h : isLog c) : ∃ r lvl f, c = .log r lvl f := by
  cases c <;> simp [isLog] at h ⊢

theorem hold_excl (h : Core U tr s γ pub lim) (ho : Ordered U tr) {t t' : Who} {r : Nat} {w : Bool} (h1 : Hold tr s lim true t r) (h2 : Hold tr s lim w t' r) : t = t' := by
  by_cases hne : t = t'
  · exact hne
  exfalso
  obtain ⟨p, hp, h1⟩ := h1
  obtain ⟨p', hp', h2⟩ := h2
  rcases h1 with ⟨a1, a2, a3⟩ | ⟨a1, a2, i, a, wa, l, a3, a4, a5, a6⟩ <;> rcases h2 with ⟨b1, b2, b3⟩ | ⟨b1, b2, j, b, wb, l', b3, b4, b5, b6⟩
  · rw [a2] at b2
    exact hne (Option.some.inj b2)
  · have hlt := (h.used j b wb l' r b3 b4 b5 b6).1
    rcases locked_cases a1 with hg | ⟨cfg, ord, hc⟩
    · have := a3 hg
      omega
    · rcases b2 with b2 | ⟨-, b2⟩
      · exact no_clash h ho hp' hp (Ne.symm hne) (by rw [hc]; exact .setConfig b2)
      · obtain ⟨r', lvl, f, e⟩ := isLog_cases b2
        exact no_clash h ho hp hp' hne (by rw [hc, e]; exact .configLog)
  · have hlt := (h.used i a wa l r a3 a4 a5 a6).1
    have a2 : sets p.task = some r := by simpa using a2
    rcases locked_cases b1 with hg | ⟨cfg, ord, hc⟩
    · have := b3 hg
      omega
    · exact no_clash h ho hp hp' hne (by rw [hc]; exact .setConfig a2)
  · have a2 : sets p.task = some r := by simpa using a2
    rcases b2 with b2 | ⟨-, b2⟩
    · exact no_clash h ho hp hp' hne (.setters a2 b2)
    · obtain ⟨r', lvl, f, e⟩ := isLog_cases b2
      exact no_clash h ho hp hp' hne (by rw [e]; exact .setLog a2)

/-- An access to a field. -/
theorem hold_access (h : Core U tr s γ pub lim) {t : Who} {p : Running} (hp : s.running t = some p) (ht : (γ t).task = p.task) {r : Nat} {w : Bool}
    (hf : (γ t).field r w) {l : Loc} (hl : fieldOf l = some r) {s' : State} {k : Code Res} (hrun : s'.running t = some { p with code := k }) (howner : s'.owner = s.owner) :
    Hold (tr ++ [entry t p (.acc w l)]) s' lim w t r := by
  have k := h.th t
  refine ⟨_, hrun, ?_⟩
  have hw : ∃ (i : Nat) (a : Entry) (w' : Bool) (l' : Loc), (tr ++ [entry t p (.acc w l)])[i]? = some a ∧ a.act = .acc w' l' ∧ fieldOf l' = some r ∧ a.task = p.task :=
    ⟨tr.length, _, w, l, last_get, rfl, hl, rfl⟩
  obtain ⟨i, a, w', l', e1, e2, e3, e4⟩ := hw
  simp only [Gh.field, ht] at hf
  cases hc : p.task <;> simp only [hc] at hf
  case getLogger n =>
    have := k.fac hf.1
    exact Or.inl ⟨trivial, by rw [howner]; exact (k.lock .factory).mpr hf.1, fun _ => by rw [← this.1]; exact hf.2⟩
  case setConfig cfg ord => exact Or.inl ⟨trivial, by rw [howner]; exact (k.lock .factory).mpr hf, fun h => h.elim⟩
  case setLevel r' lv => exact Or.inr ⟨fun h => h, Or.inl (by rw [hf.1]; rfl), i, a, w', l', e1, e2, e3, by rw [e4, hc]; exact fun h => h⟩
  case setCallerSkip r' lv => exact Or.inr ⟨fun h => h, Or.inl (by rw [hf.1]; rfl), i, a, w', l', e1, e2, e3, by rw [e4, hc]; exact fun h => h⟩
  case setOutputs r' lv => exact Or.inr ⟨fun h => h, Or.inl (by rw [hf.1]; rfl), i, a, w', l', e1, e2, e3, by rw [e4, hc]; exact fun h => h⟩
  case log r' lv f => exact Or.inr ⟨fun h => h, Or.inr ⟨hf.2, trivial⟩, i, a, w', l', e1, e2, e3, by rw [e4, hc]; exact fun h => h⟩

/-- What does not change it. -/
theorem Hold.app {w : Bool} {t : Who} {r : Nat} (h : Hold tr s lim w t r) {z : List Entry} {s' : State} {lim' : Nat}
    (hrun : ∀ p, s.running t = some p → ∃ p', s'.running t = some p' ∧ p'.task = p.task) (how : s.owner .factory = some t → s'.owner .factory = some t ∧ lim' = lim) :
    Hold (tr ++ z) s' lim' w t r := by
  obtain ⟨p, hp, h⟩ := h
  obtain ⟨p', hp', e⟩ := hrun p hp
  refine ⟨p', hp', ?_⟩
  rw [e]
  refine h.imp (fun ⟨a1, a2, a3⟩ => ⟨a1, (how a2).1, fun hg => by rw [(how a2).2]; exact a3 hg⟩) fun ⟨a1, a2, i, a, w', l, a3, a4⟩ => ⟨a1, a2, i, a, w', l, get_left a3, a4⟩

/-- Flags of loggers. -/
structure JL (σ : Nat → Shape) (φ : Nat → Option Fmt) (mem : Mem) (H : Bool → Who → Nat → Prop) (g : Who → G2) : Prop where
  flag2 : ∀ (r : Nat), mem (.flag r) ≤ 2
  settled : ∀ (r : Nat), (∀ o ∈ mem (.ops r), answers (σ o) (φ o) ≤ mem (.flag r)) ∨ ∃ (t : Who) (v : List Nat), (g t).busy = some (r, v)
  busy : ∀ (t : Who) (r : Nat) (v : List Nat), (g t).busy = some (r, v) → mem (.ops r) = v ∧ H true t r
  fl : ∀ (t : Who) (r : Nat) (x : Int), (g t).fl = some (r, x) → mem (.flag r) = x ∧ H false t r

variable {mem mem' : Mem} {H H' : Bool → Who → Nat → Prop} {g : Who → G2} {t : Who} {G : G2}

/-- The logger a goroutine has set the outputs of is settled. -/
theorem JL.done (h : JL σ φ mem H g) (hf : (g t).full σ φ) {r : Nat} {v : List Nat} (hb : (g t).busy = some (r, v)) : ∀ o ∈ mem (.ops r), answers (σ o) (φ o) ≤ mem (.flag r) := by
  rw [(h.busy t r v hb).1]
  rcases hf r v hb with rfl | ⟨x, h1, h2⟩
  · simp
  · rw [(h.fl t r x h1).1]
    exact h2

theorem JL.keep (h : JL σ φ mem H g) (h1 : ∀ r, mem' (.ops r) = mem (.ops r)) (h2 : ∀ r, mem' (.flag r) = mem (.flag r)) (h3 : ∀ w t' r, t' ≠ t → H w t' r → H' w t' r)
    (h4 : ((∀ w r, H w t r → H' w t r) ∧ G.busy = (g t).busy ∧ G.fl = (g t).fl) ∨ ((g t).full σ φ ∧ G.busy = none ∧ G.fl = none)) : JL σ φ mem' H' (set g t G) := by
  refine ⟨fun r => by rw [h2]; exact h.flag2 r, fun r => ?_, fun t' r v hb => ?_, fun t' r x hb => ?_⟩
  · rw [h1, h2]
    rcases h.settled r with h5 | ⟨t', v, h5⟩
    · exact Or.inl h5
    · by_cases e : t' = t
      · subst e
        rcases h4 with ⟨-, h6, -⟩ | ⟨h6, -, -⟩
        · exact Or.inr ⟨t', v, by rw [set_self, h6]; exact h5⟩
        · exact Or.inl (h.done h6 h5)
      · exact Or.inr ⟨t', v, by rw [set_ne _ _ e]; exact h5⟩
  · rw [h1]
    by_cases e : t' = t
    · subst e
      rw [set_self] at hb
      rcases h4 with ⟨h6, h7, -⟩ | ⟨-, h7, -⟩
      · rw [h7] at hb
        exact ⟨(h.busy t' r v hb).1, h6 _ _ (h.busy t' r v hb).2⟩
      · rw [h7] at hb; cases hb
    · rw [set_ne _ _ e] at hb
      exact ⟨(h.busy t' r v hb).1, h3 _ _ _ e (h.busy t' r v hb).2⟩
  · rw [h2]
    by_cases e : t' = t
    · subst e
      rw [set_self] at hb
      rcases h4 with ⟨h6, -, h7⟩ | ⟨-, -, h7⟩
      · rw [h7] at hb
        exact ⟨(h.fl t' r x hb).1, h6 _ _ (h.fl t' r x hb).2⟩
      · rw [h7] at hb; cases hb
    · rw [set_ne _ _ e] at hb
      exact ⟨(h.fl t' r x hb).1, h3 _ _ _ e (h.fl t' r x hb).2⟩

theorem JL.readFlag (h : JL σ φ mem H g) (h3 : ∀ w t' r, H w t' r → H' w t' r) {r : Nat} (hh : H' false t r) :
    JL σ φ mem H' (set g t { g t with fl := some (r, mem (.flag r)) }) := by
  refine ⟨h.flag2, fun r => ?_, fun t' r v hb => ?_, fun t' r' x hb => ?_⟩
  · refine (h.settled r).imp id fun ⟨t', v, h5⟩ => ⟨t', v, ?_⟩
    by_cases e : t' = t
    · subst e; rw [set_self]; exact h5
    · rw [set_ne _ _ e]; exact h5
  · have hb : (g t').busy = some (r, v) := by
      by_cases e : t' = t
      · subst e; rw [set_self] at hb; exact hb
      · rw [set_ne _ _ e] at hb; exact hb
    exact ⟨(h.busy t' r v hb).1, h3 _ _ _ (h.busy t' r v hb).2⟩
  · by_cases e : t' = t
    · subst e
      rw [set_self] at hb
      obtain ⟨rfl, rfl⟩ := Prod.mk.inj (Option.some.inj hb)
      exact ⟨rfl, hh⟩
    · rw [set_ne _ _ e] at hb
      exact ⟨(h.fl t' r' x hb).1, h3 _ _ _ (h.fl t' r' x hb).2⟩

theorem JL.writeOps (h : JL σ φ mem H g) (h3 : ∀ w t' r, H w t' r → H' w t' r) (hex : ∀ t1 t2 r w, H' true t1 r → H' w t2 r → t1 = t2) {r : Nat} (hh : H' true t r)
    (hf : (g t).full σ φ) (v : List Nat) : JL σ φ (mem.upd (.ops r) v) H' (set g t { g t with busy := some (r, v), fl := none }) := by
  have hfl : ∀ r', mem.upd (.ops r) v (.flag r') = mem (.flag r') := fun r' => upd_ne _ _ (by simp)
  refine ⟨fun r' => by rw [hfl]; exact h.flag2 r', fun r' => ?_, fun t' r' v' hb => ?_, fun t' r' x hb => ?_⟩
  · by_cases er : r' = r
    · subst er
      exact Or.inr ⟨t, v, by rw [set_self]⟩
    · rw [hfl, upd_ne _ _ (by simpa using er)]
      rcases h.settled r' with h5 | ⟨t', v', h5⟩
      · exact Or.inl h5
      · by_cases e : t' = t
        · subst e
          exact Or.inl (h.done hf h5)
        · exact Or.inr ⟨t', v', by rw [set_ne _ _ e]; exact h5⟩
  · by_cases e : t' = t
    · subst e
      rw [set_self] at hb
      obtain ⟨rfl, rfl⟩ := Prod.mk.inj (Option.some.inj hb)
      exact ⟨upd_self _ _ _, hh⟩
    · rw [set_ne _ _ e] at hb
      have h5 := h.busy t' r' v' hb
      have er : r' ≠ r := by
        rintro rfl
        exact e (hex _ _ _ _ (h3 _ _ _ h5.2) hh)
      rw [upd_ne _ _ (by simpa using er)]
      exact ⟨h5.1, h3 _ _ _ h5.2⟩
  · rw [hfl]
    by_cases e : t' = t
    · subst e
      rw [set_self] at hb
      cases hb
    · rw [set_ne _ _ e] at hb
      exact ⟨(h.fl t' r' x hb).1, h3 _ _ _ (h.fl t' r' x hb).2⟩

theorem JL.writeFlag (h : JL σ φ mem H g) (h3 : ∀ w t' r, H w t' r → H' w t' r) (hex : ∀ t1 t2 r w, H' true t1 r → H' w t2 r → t1 = t2) {r : Nat} (hh : H' true t r)
    {v : List Nat} (hb0 : (g t).busy = some (r, v)) {c : Int} (hc : c ≤ 2) (hh' : H' false t r) : JL σ φ (mem.upd (.flag r) c) H' (set g t { g t with fl := some (r, c) }) := by
  have hops : ∀ r', mem.upd (.flag r) c (.ops r') = mem (.ops r') := fun r' => upd_ne _ _ (by simp)
  refine ⟨fun r' => ?_, fun r' => ?_, fun t' r' v' hb => ?_, fun t' r' x hb => ?_⟩
  · by_cases er : r' = r
    · subst er; rw [upd_self]; exact hc
    · rw [upd_ne _ _ (by simpa using er)]; exact h.flag2 r'
  · by_cases er : r' = r
    · subst er
      exact Or.inr ⟨t, v, by rw [set_self]; exact hb0⟩
    · rw [hops, upd_ne _ _ (by simpa using er)]
      refine (h.settled r').imp id fun ⟨t', v', h5⟩ => ⟨t', v', ?_⟩
      by_cases e : t' = t
      · subst e; rw [set_self]; exact h5
      · rw [set_ne _ _ e]; exact h5
  · have hb : (g t').busy = some (r', v') := by
      by_cases e : t' = t
      · subst e; rw [set_self] at hb; exact hb
      · rw [set_ne _ _ e] at hb; exact hb
    rw [hops]
    exact ⟨(h.busy t' r' v' hb).1, h3 _ _ _ (h.busy t' r' v' hb).2⟩
  · by_cases e : t' = t
    · subst e
      rw [set_self] at hb
      obtain ⟨rfl, rfl⟩ := Prod.mk.inj (Option.some.inj hb)
      exact ⟨upd_self _ _ _, hh'⟩
    · rw [set_ne _ _ e] at hb
      have h5 := h.fl t' r' x hb
      have er : r' ≠ r := by
        rintro rfl
        exact e (hex _ _ _ _ hh (h3 _ _ _ h5.2)).symm
      rw [upd_ne _ _ (by simpa using er)]
      exact ⟨h5.1, h3 _ _ _ h5.2⟩

/-! ## Events -/

/-- The goroutine that made an event. -/
def Made (tr : List Entry) (t : Who) (e : Nat) : Prop := ∃ (k : Nat) (b : Entry), tr[k]? = some b ∧ b.who = t ∧ b.act = .acc true (.evt e)

/-- A goroutine has received an event, before place `j`. -/
def Got (tr : List Entry) (t : Who) (e j : Nat) : Prop :=
  ∃ (k : Nat) (c : Entry) (o : Nat) (src : Nat) (d : Entry) (room : Option Nat), k < j ∧ src < k ∧ tr[k]? = some c ∧ c.who = t ∧ c.act = .recv o (some e) src ∧
    tr[src]? = some d ∧ d.act = .send o (some e) room

def isInfo (e : Nat) (l : Loc) : Prop := l = .ctx e ∨ l = .info e

structure JE (φ : Nat → Option Fmt) (tr : List Entry) (mem : Mem) (nevt : Nat) (chan : Nat → List (Option Nat × Nat)) (g : Who → G2) : Prop where
  ev : ∀ (t : Who) (e : Nat) (c i f : Bool), (g t).ev = some (e, c, i, f) → e < nevt ∧ mem (.ctx e) = c ∧ mem (.info e) = i ∧ (mem (.evt e)).2 = f
  own : ∀ (t : Who) (x : Nat × Bool × Bool × Bool), (g t).ev = some x → (g t).mode ≤ 1 → Made tr t x.1
  mine : ∀ (t : Who) (x : Nat × Bool × Bool × Bool), (g t).ev = some x → (g t).mode = 0 →
    (∀ (t' : Who) (y : Nat × Bool × Bool × Bool), (g t').ev = some y → y.1 = x.1 → t' = t) ∧ (∀ (o src : Nat), (some x.1, src) ∉ chan o) ∧
    ∀ (j : Nat) (b : Entry) (o : Nat) (room : Option Nat), tr[j]? = some b → b.act ≠ .send o (some x.1) room
  got : ∀ (t : Who) (x : Nat × Bool × Bool × Bool), (g t).ev = some x → 2 ≤ (g t).mode → Got tr t x.1 tr.length
  chan : ∀ (o e src : Nat), (some e, src) ∈ chan o → e < nevt ∧ fits (φ o) (mem (.ctx e)) (mem (.info e)) (mem (.evt e)).2 ∧
    ∃ (d : Entry) (room : Option Nat), tr[src]? = some d ∧ d.act = .send o (some e) room
  news : ∀ (i j : Nat) (a b : Entry) (e : Nat), tr[i]? = some a → tr[j]? = some b → a.act = .acc true (.evt e) → b.act = .acc true (.evt e) → i = j
  sends : ∀ (j : Nat) (b : Entry) (o e : Nat) (room : Option Nat), tr[j]? = some b → b.act = .send o (some e) room → Made tr b.who e
  early : ∀ (i j : Nat) (a b : Entry) (l : Loc) (o e : Nat) (room : Option Nat), tr[i]? = some a → a.act = .acc true l → isInfo e l → tr[j]? = some b →
    b.act = .send o (some e) room → i < j
  acc : ∀ (j : Nat) (b : Entry) (w : Bool) (l : Loc) (e : Nat), tr[j]? = some b → b.act = .acc w l → isInfo e l → Made tr b.who e ∨ w = false ∧ Got tr b.who e j

theorem Made.app {e : Nat} (h : Made tr t e) (z : List Entry) : Made (tr ++ z) t e := by
  obtain ⟨k, b, h1, h2⟩ := h
  exact ⟨k, b, get_left h1, h2⟩

theorem Got.app {e j j' : Nat} (h : Got tr t e j) (hj : j ≤ j') (z : List Entry) : Got (tr ++ z) t e j' := by
  obtain ⟨k, c, o, src, d, room, h1, h2, h3, h4, h5, h6, h7⟩ := h
  exact ⟨k, c, o, src, d, room, by omega, h2, get_left h3, h4, h5, get_left h6, h7⟩

variable {nevt nevt' : Nat} {chan chan' : Nat → List (Option Nat × Nat)} {x : Entry}

/-- A step that has nothing to do with events. -/
def dull : StepKind → Prop
  | .acc _ (.ctx _) => False
  | .acc _ (.info _) => False
  | .acc w (.evt _) => w = false
  | .send _ e _ => e = none
  | _ => True

theorem dull_info {a : StepKind} (h : dull a) {w : Bool} {l : Loc} {e : Nat} (hl : isInfo e l) : a ≠ .acc w l := by
  rintro rfl
  rcases hl with rfl | rfl <;> exact h

theorem JE.keep (h : JE φ tr mem nevt chan g) (hd : dull x.act) (h1 : ∀ e, mem' (.ctx e) = mem (.ctx e)) (h2 : ∀ e, mem' (.info e) = mem (.info e))
    (h3 : ∀ e, mem' (.evt e) = mem (.evt e)) (hc : ∀ o e src, (some e, src) ∈ chan' o → (some e, src) ∈ chan o)
    (hG : (G.ev = (g t).ev ∧ (G.mode = (g t).mode ∨ (g t).mode = 0 ∧ G.mode = 1)) ∨ G.ev = none) : JE φ (tr ++ [x]) mem' nevt chan' (set g t G) := by
  have hev : ∀ t' y, (set g t G t').ev = some y → (g t').ev = some y ∧ ((set g t G t').mode = (g t').mode ∨ (g t').mode = 0 ∧ (set g t G t').mode = 1) := by
    intro t' y hy
    by_cases e : t' = t
    · subst e
      rw [set_self] at hy ⊢
      rcases hG with ⟨h5, h6⟩ | h5
      · exact ⟨by rw [← h5]; exact hy, h6⟩
      · rw [h5] at hy; cases hy
    · rw [set_ne _ _ e] at hy ⊢
      exact ⟨hy, Or.inl rfl⟩
  refine ⟨fun t' e c i f he => ?_, fun t' y he hm => ?_, fun t' y he hm => ?_, fun t' y he hm => ?_, fun o e src hs => ?_, ?_, ?_, ?_, ?_⟩
  · rw [h1, h2, h3]
    exact h.ev t' e c i f (hev t' _ he).1
  · obtain ⟨h5, h6⟩ := hev t' y he
    exact (h.own t' y h5 (by omega)).app _
  · obtain ⟨h5, h6⟩ := hev t' y he
    obtain ⟨m1, m2, m3⟩ := h.mine t' y h5 (by omega)
    refine ⟨fun t2 z hz => m1 t2 z (hev t2 z hz).1, fun o src hs => m2 o src (hc _ _ _ hs), fun j b o room hj hb => ?_⟩
    replace hj := get_app.mp hj
    rcases hj with hj | ⟨-, rfl⟩
    · exact m3 j b o room hj hb
    · rw [hb] at hd; cases hd
  · obtain ⟨h5, h6⟩ := hev t' y he
    exact (h.got t' y h5 (by omega)).app (by simp) _
  · rw [h1, h2, h3]
    obtain ⟨c1, c2, d, room, c3, c4⟩ := h.chan o e src (hc _ _ _ hs)
    exact ⟨c1, c2, d, room, get_left c3, c4⟩
  · intro i j a b e hi hj ha hb
    replace hi := get_app.mp hi
    rcases hi with hi | ⟨-, rfl⟩
    · replace hj := get_app.mp hj
      rcases hj with hj | ⟨-, rfl⟩
      · exact h.news i j a b e hi hj ha hb
      · rw [hb] at hd; cases hd
    · rw [ha] at hd; cases hd
  · intro j b o e room hj hb
    replace hj := get_app.mp hj
    rcases hj with hj | ⟨-, rfl⟩
    · exact (h.sends j b o e room hj hb).app _
    · rw [hb] at hd; cases hd
  · intro i j a b l o e room hi ha hl hj hb
    replace hj := get_app.mp hj
    rcases hj with hj | ⟨-, rfl⟩
    · replace hi := get_app.mp hi
      rcases hi with hi | ⟨-, rfl⟩
      · exact h.early i j a b l o e room hi ha hl hj hb
      · exact absurd ha (dull_info hd hl)
    · rw [hb] at hd; cases hd
  · intro j b w l e hj hb hl
    replace hj := get_app.mp hj
    rcases hj with hj | ⟨-, rfl⟩
    · exact (h.acc j b w l e hj hb hl).imp (fun h => h.app _) fun ⟨h5, h6⟩ => ⟨h5, h6.app (Nat.le_refl _) _⟩
    · exact absurd hb (dull_info hd hl)

theorem JE.newEvent (h : JE φ tr mem nevt chan g) (hx : x.act = .acc true (.evt nevt)) (ht : x.who = t)
    (hev : ∀ (i : Nat) (a : Entry) (w : Bool) (e : Nat), tr[i]? = some a → a.act = .acc w (.evt e) → e < nevt) (v : Level × Bool) :
    JE φ (tr ++ [x]) (mem.upd (.evt nevt) v) (nevt + 1) chan (set g t { g t with ev := some (nevt, mem (.ctx nevt), mem (.info nevt), v.2), mode := 0 }) := by
  have h1 : ∀ e, mem.upd (.evt nevt) v (.ctx e) = mem (.ctx e) := fun e => upd_ne _ _ (by simp)
  have h2 : ∀ e, mem.upd (.evt nevt) v (.info e) = mem (.info e) := fun e => upd_ne _ _ (by simp)
  have h3 : ∀ e, e < nevt → mem.upd (.evt nevt) v (.evt e) = mem (.evt e) := fun e he => upd_ne _ _ (by simp; omega)
  have hlt : ∀ t e, Made tr t e → e < nevt := fun t e ⟨k, b, k1, _, k3⟩ => hev k b true e k1 k3
  have hold : ∀ t' y, (g t').ev = some y → y.1 < nevt := fun t' y hy => by
    obtain ⟨e, c, i, f⟩ := y
    exact (h.ev t' e c i f hy).1
  refine ⟨fun t' e c i f he => ?_, fun t' y he hm => ?_, fun t' y he hm => ?_, fun t' y he hm => ?_, fun o e src hs => ?_, ?_, ?_, ?_, ?_⟩
  · by_cases e' : t' = t
    · subst e'
      rw [set_self] at he
      cases he
      exact ⟨by omega, h1 _, h2 _, by rw [upd_self]⟩
    · rw [set_ne _ _ e'] at he
      obtain ⟨k1, k2, k3, k4⟩ := h.ev t' e c i f he
      exact ⟨by omega, by rw [h1]; exact k2, by rw [h2]; exact k3, by rw [h3 e k1]; exact k4⟩
  · by_cases e' : t' = t
    · subst e'
      rw [set_self] at he
      cases he
      exact ⟨tr.length, x, last_get, ht, hx⟩
    · rw [set_ne _ _ e'] at he hm
      exact (h.own t' y he hm).app _
  · by_cases e' : t' = t
    · subst e'
      rw [set_self] at he
      cases he
      refine ⟨fun t2 z hz hzn => ?_, fun o src hs => ?_, fun j b o room hj hb => ?_⟩
      · by_cases e2 : t2 = t'
        · exact e2
        · rw [set_ne _ _ e2] at hz
          have := hold t2 z hz
          dsimp only at hzn
          omega
      · have := (h.chan o nevt src hs).1
        omega
      · replace hj := get_app.mp hj
        rcases hj with hj | ⟨-, rfl⟩
        · have := hlt _ _ (h.sends j b o nevt room hj hb)
          omega
        · rw [hx] at hb; cases hb
    · rw [set_ne _ _ e'] at he hm
      obtain ⟨m1, m2, m3⟩ := h.mine t' y he hm
      refine ⟨fun t2 z hz hzn => ?_, m2, fun j b o room hj hb => ?_⟩
      · by_cases e2 : t2 = t
        · subst e2
          rw [set_self] at hz
          cases hz
          have := hold t' y he
          dsimp only at hzn
          omega
        · rw [set_ne _ _ e2] at hz
          exact m1 t2 z hz hzn
      · replace hj := get_app.mp hj
        rcases hj with hj | ⟨-, rfl⟩
        · exact m3 j b o room hj hb
        · rw [hx] at hb; cases hb
  · by_cases e' : t' = t
    · subst e'
      rw [set_self] at hm
      dsimp only at hm
      omega
    · rw [set_ne _ _ e'] at he hm
      exact (h.got t' y he hm).app (by simp) _
  · obtain ⟨c1, c2, d, room, c3, c4⟩ := h.chan o e src hs
    rw [h1, h2, h3 e c1]
    exact ⟨by omega, c2, d, room, get_left c3, c4⟩
  · intro i j a b e hi hj ha hb
    replace hi := get_app.mp hi
    rcases hi with hi | ⟨h5, rfl⟩
    · replace hj := get_app.mp hj
      rcases hj with hj | ⟨-, rfl⟩
      · exact h.news i j a b e hi hj ha hb
      · have := hev i a true e hi ha
        rw [hx] at hb
        cases hb
        omega
    · replace hj := get_app.mp hj
      rcases hj with hj | ⟨h6, -⟩
      · have := hev j b true e hj hb
        rw [hx] at ha
        cases ha
        omega
      · omega
  · intro j b o e room hj hb
    replace hj := get_app.mp hj
    rcases hj with hj | ⟨-, rfl⟩
    · exact (h.sends j b o e room hj hb).app _
    · rw [hx] at hb; cases hb
  · intro i j a b l o e room hi ha hl hj hb
    replace hj := get_app.mp hj
    rcases hj with hj | ⟨-, rfl⟩
    · replace hi := get_app.mp hi
      rcases hi with hi | ⟨-, rfl⟩
      · exact h.early i j a b l o e room hi ha hl hj hb
      · rw [hx] at ha
        cases ha
        rcases hl with hl | hl <;> cases hl
    · rw [hx] at hb; cases hb
  · intro j b w l e hj hb hl
    replace hj := get_app.mp hj
    rcases hj with hj | ⟨-, rfl⟩
    · exact (h.acc j b w l e hj hb hl).imp (fun h => h.app _) fun ⟨h5, h6⟩ => ⟨h5, h6.app (Nat.le_refl _) _⟩
    · rw [hx] at hb
      cases hb
      rcases hl with hl | hl <;> cases hl

/-- An access to caller information. -/
theorem JE.touch (h : JE φ tr mem nevt chan g) {w : Bool} {l : Loc} {e : Nat} {c i f : Bool} (hx : x.act = .acc w l) (hl : isInfo e l) (ht : x.who = t)
    (hev : (g t).ev = some (e, c, i, f)) (hw : w = true → (g t).mode = 0) (h1 : ∀ e', e' ≠ e → mem' (.ctx e') = mem (.ctx e')) (h2 : ∀ e', e' ≠ e → mem' (.info e') = mem (.info e'))
    (h3 : ∀ e', mem' (.evt e') = mem (.evt e')) (hsame : w = false → mem' = mem) (hG : G.ev = some (e, mem' (.ctx e), mem' (.info e), f)) (hm : G.mode = (g t).mode) :
    JE φ (tr ++ [x]) mem' nevt chan (set g t G) := by
  have hnd : ∀ o e' room, x.act ≠ .send o (some e') room := fun o e' room he => by rw [hx] at he; cases he
  have hnn : ∀ e', x.act ≠ .acc true (.evt e') := fun e' he => by
    rw [hx] at he; cases he; rcases hl with hl | hl <;> cases hl
  have hfst : ∀ t' y, (set g t G t').ev = some y → (∃ y', (g t').ev = some y' ∧ y'.1 = y.1) ∧ (set g t G t').mode = (g t').mode := by
    intro t' y hy
    by_cases e' : t' = t
    · subst e'
      rw [set_self] at hy ⊢
      rw [hG] at hy
      cases hy
      exact ⟨⟨_, hev, rfl⟩, hm⟩
    · rw [set_ne _ _ e'] at hy ⊢
      exact ⟨⟨_, hy, rfl⟩, rfl⟩
  -- nobody else has the event while it is written to
  have halone : ∀ t' y, (g t').ev = some y → y.1 = e → t' ≠ t → mem' = mem := by
    intro t' y hy hye hne
    cases w with
    | false => exact hsame rfl
    | true => exact absurd ((h.mine t _ hev (hw rfl)).1 t' y hy hye) hne
  have hchan : ∀ o src, (some e, src) ∈ chan o → mem' = mem := by
    intro o src hs
    cases w with
    | false => exact hsame rfl
    | true => exact absurd hs ((h.mine t _ hev (hw rfl)).2.1 o src)
  refine ⟨fun t' e2 c2 i2 f2 he => ?_, fun t' y he hm' => ?_, fun t' y he hm' => ?_, fun t' y he hm' => ?_, fun o e2 src hs => ?_, ?_, ?_, ?_, ?_⟩
  · by_cases e' : t' = t
    · subst e'
      rw [set_self, hG] at he
      cases he
      obtain ⟨k1, k2, k3, k4⟩ := h.ev t' _ _ _ _ hev
      exact ⟨k1, rfl, rfl, by rw [h3]; exact k4⟩
    · rw [set_ne _ _ e'] at he
      by_cases ee : e2 = e
      · subst ee
        rw [halone t' _ he rfl e']
        exact h.ev t' _ _ _ _ he
      · rw [h1 _ ee, h2 _ ee, h3]
        exact h.ev t' _ _ _ _ he
  · obtain ⟨⟨y', k1, k2⟩, k3⟩ := hfst t' y he
    rw [← k2]
    exact (h.own t' y' k1 (by omega)).app _
  · obtain ⟨⟨y', k1, k2⟩, k3⟩ := hfst t' y he
    obtain ⟨m1, m2, m3⟩ := h.mine t' y' k1 (by omega)
    rw [← k2]
    refine ⟨fun t2 z hz hzn => ?_, m2, fun j b o room hj hb => ?_⟩
    · obtain ⟨⟨z', q1, q2⟩, -⟩ := hfst t2 z hz
      exact m1 t2 z' q1 (by rw [q2]; exact hzn)
    · replace hj := get_app.mp hj
      rcases hj with hj | ⟨-, rfl⟩
      · exact m3 j b o room hj hb
      · exact hnd _ _ _ hb
  · obtain ⟨⟨y', k1, k2⟩, k3⟩ := hfst t' y he
    rw [← k2]
    exact (h.got t' y' k1 (by omega)).app (by simp) _
  · obtain ⟨c1, c2, d, room, c3, c4⟩ := h.chan o e2 src hs
    refine ⟨c1, ?_, d, room, get_left c3, c4⟩
    by_cases ee : e2 = e
    · subst ee
      rw [hchan o src hs]
      exact c2
    · rw [h1 _ ee, h2 _ ee, h3]
      exact c2
  · intro i j a b e2 hi hj ha hb
    replace hi := get_app.mp hi
    rcases hi with hi | ⟨h5, rfl⟩
    · replace hj := get_app.mp hj
      rcases hj with hj | ⟨-, rfl⟩
      · exact h.news i j a b e2 hi hj ha hb
      · exact absurd hb (hnn _)
    · exact absurd ha (hnn _)
  · intro j b o e2 room hj hb
    replace hj := get_app.mp hj
    rcases hj with hj | ⟨-, rfl⟩
    · exact (h.sends j b o e2 room hj hb).app _
    · exact absurd hb (hnd _ _ _)
  · intro i j a b l2 o e2 room hi ha hl2 hj hb
    replace hj := get_app.mp hj
    rcases hj with hj | ⟨-, rfl⟩
    · replace hi := get_app.mp hi
      rcases hi with hi | ⟨-, rfl⟩
      · exact h.early i j a b l2 o e2 room hi ha hl2 hj hb
      · rw [hx] at ha
        cases ha
        have he : e2 = e := by rcases hl with rfl | rfl <;> rcases hl2 with hl2 | hl2 <;> cases hl2 <;> rfl
        subst he
        exact absurd hb ((h.mine t _ hev (hw rfl)).2.2 j b o room hj)
    · exact absurd hb (hnd _ _ _)
  · intro j b w2 l2 e2 hj hb hl2
    replace hj := get_app.mp hj
    rcases hj with hj | ⟨hj, rfl⟩
    · exact (h.acc j b w2 l2 e2 hj hb hl2).imp (fun h => h.app _) fun ⟨h5, h6⟩ => ⟨h5, h6.app (Nat.le_refl _) _⟩
    · rw [hx] at hb
      cases hb
      have he : e2 = e := by rcases hl with rfl | rfl <;> rcases hl2 with hl2 | hl2 <;> cases hl2 <;> rfl
      subst he
      rw [ht]
      by_cases hmode : (g t).mode ≤ 1
      · exact Or.inl ((h.own t _ hev hmode).app _)
      · refine Or.inr ⟨?_, by rw [hj]; exact (h.got t _ hev (by omega)).app (Nat.le_refl _) _⟩
        cases w with
        | false => rfl
        | true => have := hw rfl; omega

theorem JE.send (h : JE φ tr mem nevt chan g) {o e : Nat} {room : Option Nat} {c i f : Bool} (hx : x.act = .send o (some e) room) (ht : x.who = t)
    (hev : (g t).ev = some (e, c, i, f)) (hm : (g t).mode = 1) (hf : fits (φ o) c i f) :
    JE φ (tr ++ [x]) mem nevt (set chan o (chan o ++ [(some e, tr.length)])) g := by
  have hacc : ∀ w l, x.act ≠ .acc w l := fun w l he => by rw [hx] at he; cases he
  refine ⟨h.ev, fun t' y he hm' => (h.own t' y he hm').app _, fun t' y he hm' => ?_, fun t' y he hm' => (h.got t' y he hm').app (by simp) _, fun o2 e2 src hs => ?_, ?_, ?_, ?_, ?_⟩
  · obtain ⟨m1, m2, m3⟩ := h.mine t' y he hm'
    have hne : e ≠ y.1 := by
      intro ee
      have := m1 t _ hev ee
      subst this
      omega
    refine ⟨m1, fun o2 src hs => ?_, fun j b o2 room2 hj hb => ?_⟩
    · by_cases eo : o2 = o
      · subst eo
        rw [set_self] at hs
        rcases List.mem_append.mp hs with hs | hs
        · exact m2 _ _ hs
        · have := List.mem_singleton.mp hs
          simp only [Prod.mk.injEq, Option.some.injEq] at this
          exact hne this.1.symm
      · rw [set_ne _ _ eo] at hs
        exact m2 _ _ hs
    · replace hj := get_app.mp hj
      rcases hj with hj | ⟨-, rfl⟩
      · exact m3 j b o2 room2 hj hb
      · rw [hx] at hb
        cases hb
        exact hne rfl
  · have hold : ∀ o2, (some e2, src) ∈ chan o2 → e2 < nevt ∧ fits (φ o2) (mem (.ctx e2)) (mem (.info e2)) (mem (.evt e2)).2 ∧
        ∃ (d : Entry) (room : Option Nat), (tr ++ [x])[src]? = some d ∧ d.act = .send o2 (some e2) room := fun o2 hs => by
      obtain ⟨c1, c2, d, room, c3, c4⟩ := h.chan o2 e2 src hs
      exact ⟨c1, c2, d, room, get_left c3, c4⟩
    by_cases eo : o2 = o
    · subst eo
      rw [set_self] at hs
      rcases List.mem_append.mp hs with hs | hs
      · exact hold _ hs
      · have := List.mem_singleton.mp hs
        simp only [Prod.mk.injEq, Option.some.injEq] at this
        obtain ⟨rfl, rfl⟩ := this
        obtain ⟨k1, k2, k3, k4⟩ := h.ev t _ _ _ _ hev
        rw [k2, k3, k4]
        exact ⟨k1, hf, x, room, last_get, hx⟩
    · rw [set_ne _ _ eo] at hs
      exact hold _ hs
  · intro i j a b e2 hi hj ha hb
    replace hi := get_app.mp hi
    rcases hi with hi | ⟨h5, rfl⟩
    · replace hj := get_app.mp hj
      rcases hj with hj | ⟨-, rfl⟩
      · exact h.news i j a b e2 hi hj ha hb
      · exact absurd hb (hacc _ _)
    · exact absurd ha (hacc _ _)
  · intro j b o2 e2 room2 hj hb
    replace hj := get_app.mp hj
    rcases hj with hj | ⟨-, rfl⟩
    · exact (h.sends j b o2 e2 room2 hj hb).app _
    · rw [hx] at hb
      cases hb
      rw [ht]
      exact (h.own t _ hev (by omega)).app _
  · intro i j a b l2 o2 e2 room2 hi ha hl2 hj hb
    replace hi := get_app.mp hi
    rcases hi with hi | ⟨-, rfl⟩
    · replace hj := get_app.mp hj
      rcases hj with hj | ⟨hj, rfl⟩
      · exact h.early i j a b l2 o2 e2 room2 hi ha hl2 hj hb
      · rw [hj]; exact get_lt hi
    · exact absurd ha (hacc _ _)
  · intro j b w2 l2 e2 hj hb hl2
    replace hj := get_app.mp hj
    rcases hj with hj | ⟨hj, rfl⟩
    · exact (h.acc j b w2 l2 e2 hj hb hl2).imp (fun h => h.app _) fun ⟨h5, h6⟩ => ⟨h5, h6.app (Nat.le_refl _) _⟩
    · exact absurd hb (hacc _ _)

theorem JE.recv (h : JE φ tr mem nevt chan g) {o e src : Nat} (hx : x.act = .recv o (some e) src) (ht : x.who = t) (hin : (some e, src) ∈ chan o)
    (hc : ∀ o e src, (some e, src) ∈ chan' o → (some e, src) ∈ chan o) :
    JE φ (tr ++ [x]) mem nevt chan' (set g t { ev := some (e, mem (.ctx e), mem (.info e), (mem (.evt e)).2), mode := 2 }) := by
  have hk : JE φ (tr ++ [x]) mem nevt chan' (set g t {}) :=
    h.keep (by rw [hx]; exact trivial) (fun _ => rfl) (fun _ => rfl) (fun _ => rfl) hc (Or.inr rfl)
  obtain ⟨c1, c2, d, room, c3, c4⟩ := h.chan o e src hin
  have hother : ∀ t' y, t' ≠ t → (set g t { ev := some (e, mem (.ctx e), mem (.info e), (mem (.evt e)).2), mode := 2 } t').ev = some y →
      (set g t {} t').ev = some y := by
    intro t' y hne hy
    rw [set_ne _ _ hne] at hy ⊢
    exact hy
  have hmode : ∀ t', t' ≠ t → (set g t { ev := some (e, mem (.ctx e), mem (.info e), (mem (.evt e)).2), mode := 2 } t').mode = (set g t {} t').mode := by
    intro t' hne
    rw [set_ne _ _ hne, set_ne _ _ hne]
  refine ⟨fun t' e2 c i f he => ?_, fun t' y he hm => ?_, fun t' y he hm => ?_, fun t' y he hm => ?_, hk.chan, hk.news, hk.sends, hk.early, hk.acc⟩
  · by_cases e' : t' = t
    · subst e'
      rw [set_self] at he
      cases he
      exact ⟨c1, rfl, rfl, rfl⟩
    · exact hk.ev t' _ _ _ _ (hother t' _ e' he)
  · by_cases e' : t' = t
    · subst e'
      rw [set_self] at hm
      dsimp only at hm
      omega
    · exact hk.own t' y (hother t' _ e' he) (by rw [← hmode t' e']; exact hm)
  · by_cases e' : t' = t
    · subst e'
      rw [set_self] at hm
      cases hm
    · have he' : (g t').ev = some y := by rw [set_ne _ _ e'] at he; exact he
      have hm' : (g t').mode = 0 := by rw [set_ne _ _ e'] at hm; exact hm
      obtain ⟨-, n2, -⟩ := h.mine t' y he' hm'
      obtain ⟨m1, m2, m3⟩ := hk.mine t' y (hother t' _ e' he) (by rw [← hmode t' e']; exact hm)
      refine ⟨fun t2 z hz hzn => ?_, m2, m3⟩
      by_cases e2 : t2 = t
      · subst e2
        rw [set_self] at hz
        cases hz
        dsimp only at hzn
        exact absurd (hzn ▸ hin) (n2 o src)
      · exact m1 t2 z (hother t2 _ e2 hz) hzn
  · by_cases e' : t' = t
    · subst e'
      rw [set_self] at he
      cases he
      exact ⟨tr.length, x, o, src, d, room, by simp, get_lt c3, last_get, ht, hx, get_left c3, c4⟩
    · exact hk.got t' y (hother t' _ e' he) (by rw [← hmode t' e']; exact hm)

/-! ## Executions -/

/-- Outputs are, and stay, what they are in the end. -/
def Agree (s : State) (pub : Nat → Prop) (σ : Nat → Shape) (φ : Nat → Option Fmt) : Prop :=
  (∀ o, o < s.nout → s.mem (.shape o) = σ o) ∧ ∀ o, pub o → s.mem (.fmt o) = φ o

def isClose (c : Task) : Prop := ∃ ord, c = .close ord

structure J (σ : Nat → Shape) (φ : Nat → Option Fmt) (tr : List Entry) (s : State) (lim : Nat) (g : Who → G2) : Prop where
  log : JL σ φ s.mem (Hold tr s lim) g
  evt : JE φ tr s.mem s.nevt s.chan g
  data : ∀ (i : Nat) (a : Entry) (w : Bool) (o : Nat), tr[i]? = some a → a.act = .acc w (.data o) → toData σ a.who o
  wait : ∀ (i : Nat) (a : Entry) (w : Bool) (o : Nat), tr[i]? = some a → a.act = .acc w (.wait o) → isClose a.task ∨ a.who = .worker o
  code : ∀ (t : Who) (p : Running), s.running t = some p → wq σ φ (isClose p.task) t p.code (fun g' _ => g'.full σ φ) (g t)
  idle : ∀ (t : Who), s.running t = none → (g t).busy = none

variable {p : Running} {S : State} {lim' : Nat} {a : StepKind} {k : Code Res}

theorem hold_keep (hp : s.running t = some p) (hrun : S.running = set s.running t (some { p with code := k })) (how : S.owner .factory = s.owner .factory) {z : List Entry} (w : Bool) (t' : Who) (r : Nat)
    (h : Hold tr s lim w t' r) : Hold (tr ++ z) S lim w t' r := by
  refine h.app (fun q hq => ?_) fun h => ⟨by rw [how]; exact h, rfl⟩
  rw [hrun]
  by_cases e : t' = t
  · subst e
    rw [hp] at hq
    cases hq
    exact ⟨_, set_self _ _ _, rfl⟩
  · exact ⟨q, by rw [set_ne _ _ e]; exact hq, rfl⟩

theorem J.into (hJ : J σ φ tr s lim g) (hrun : S.running = set s.running t (some { p with code := k }))
    (h1 : JL σ φ S.mem (Hold (tr ++ [entry t p a]) S lim') (set g t G)) (h2 : JE φ (tr ++ [entry t p a]) S.mem S.nevt S.chan (set g t G))
    (h3 : ∀ w o, a = .acc w (.data o) → toData σ t o) (h5 : ∀ w o, a = .acc w (.wait o) → isClose p.task ∨ t = .worker o) (h4 : wq σ φ (isClose p.task) t k (fun g' _ => g'.full σ φ) G) : J σ φ (tr ++ [entry t p a]) S lim' (set g t G) := by
  refine ⟨h1, h2, fun i b w o hi hb => ?_, fun i b w o hi hb => ?_, fun t' q hq => ?_, fun t' hq => ?_⟩
  · rcases get_app.mp hi with hi | ⟨-, rfl⟩
    · exact hJ.data i b w o hi hb
    · exact h3 w o hb
  · rcases get_app.mp hi with hi | ⟨-, rfl⟩
    · exact hJ.wait i b w o hi hb
    · exact h5 w o hb
  · rw [hrun] at hq
    by_cases e : t' = t
    · subst e
      rw [set_self] at hq ⊢
      cases hq
      exact h4
    · rw [set_ne _ _ e] at hq ⊢
      exact hJ.code t' q hq
  · rw [hrun] at hq
    by_cases e : t' = t
    · subst e
      rw [set_self] at hq
      cases hq
    · rw [set_ne _ _ e] at hq ⊢
      exact hJ.idle t' hq

/-- A step that touches neither flags nor events. -/
theorem J.plain (hJ : J σ φ tr s lim g) (hp : s.running t = some p) (hrun : S.running = set s.running t (some { p with code := k })) (how : S.owner .factory = s.owner .factory)
    (m1 : ∀ r, S.mem (.ops r) = s.mem (.ops r)) (m2 : ∀ r, S.mem (.flag r) = s.mem (.flag r)) (m3 : ∀ e, S.mem (.ctx e) = s.mem (.ctx e)) (m4 : ∀ e, S.mem (.info e) = s.mem (.info e))
    (m5 : ∀ e, S.mem (.evt e) = s.mem (.evt e)) (hn : S.nevt = s.nevt) (hc : ∀ o e src, (some e, src) ∈ S.chan o → (some e, src) ∈ s.chan o)
    (hd : dull a) (h3 : ∀ w o, a = .acc w (.data o) → toData σ t o) (h5 : ∀ w o, a = .acc w (.wait o) → isClose p.task ∨ t = .worker o) (hb : G.busy = (g t).busy) (hf : G.fl = (g t).fl) (hev : G.ev = (g t).ev)
    (hm : G.mode = (g t).mode ∨ (g t).mode = 0 ∧ G.mode = 1) (h4 : wq σ φ (isClose p.task) t k (fun g' _ => g'.full σ φ) G) : J σ φ (tr ++ [entry t p a]) S lim (set g t G) := by
  refine hJ.into hrun ?_ ?_ h3 h5 h4
  · exact hJ.log.keep m1 m2 (fun w t' r _ h => hold_keep hp hrun how w t' r h) (Or.inl ⟨fun w r h => hold_keep hp hrun how w t r h, hb, hf⟩)
  · rw [hn]
    exact hJ.evt.keep hd m3 m4 m5 hc (Or.inl ⟨hev, hm⟩)

/-- Locking or unlocking the factory. -/
theorem J.passes (hJ : J σ φ tr s lim g) (hp : s.running t = some p) (hrun : S.running = set s.running t (some { p with code := k }))
    (how : ∀ t', t' ≠ t → s.owner .factory ≠ some t') (hm : S.mem = s.mem) (hn : S.nevt = s.nevt) (hc : S.chan = s.chan) (hd : dull a) (h3 : ∀ w l, a ≠ .acc w l)
    (hf : (g t).full σ φ) (h4 : wq σ φ (isClose p.task) t k (fun g' _ => g'.full σ φ) ((g t).pass .factory)) : J σ φ (tr ++ [entry t p a]) S lim' (set g t ((g t).pass .factory)) := by
  refine hJ.into hrun ?_ ?_ (fun w o e => absurd e (h3 _ _)) (fun w o e => absurd e (h3 _ _)) h4
  · rw [hm]
    refine hJ.log.keep (fun _ => rfl) (fun _ => rfl) (fun w t' r hne h => ?_) (Or.inr ⟨hf, rfl, rfl⟩)
    exact h.app (fun q hq => ⟨q, by rw [hrun, set_ne _ _ hne]; exact hq, rfl⟩) fun h => absurd h (how t' hne)
  · rw [hm, hn, hc]
    exact hJ.evt.keep hd (fun _ => rfl) (fun _ => rfl) (fun _ => rfl) (fun _ _ _ h => h) (Or.inl ⟨rfl, Or.inl rfl⟩)

variable {γ' : Who → Gh} {pub' : Nat → Prop}

theorem J.read (hJ : J σ φ tr s lim g) (hi : Inv U tr s γ pub lim) (hp : s.running t = some p) {l : Loc} {f : Val l → Code Res} (hcode : p.code = .read l f)
    (hS : S = { s with running := set s.running t (some { p with code := f (s.mem l) }) }) (c' : Core U (tr ++ [entry t p (.acc false l)]) S γ' pub' lim)
    (ho : Ordered U (tr ++ [entry t p (.acc false l)])) (hA : Agree S pub' σ φ) (hpub : ∀ o, pub o → pub' o) : ∃ g', J σ φ (tr ++ [entry t p (.acc false l)]) S lim g' := by
  have hq := hJ.code t p hp
  obtain ⟨b1, b2⟩ := hi.busy t p hp
  have hrun : S.running = set s.running t (some { p with code := f (s.mem l) }) := by rw [hS]
  have hrunt : S.running t = some { p with code := f (s.mem l) } := by rw [hrun, set_self]
  have how : S.owner = s.owner := by rw [hS]
  have hmem : S.mem = s.mem := by rw [hS]
  have hne : S.nevt = s.nevt := by rw [hS]
  have hch : S.chan = s.chan := by rw [hS]
  rw [hcode] at hq b2
  simp only [wq] at hq
  simp only [wp] at b2
  have hplain : ∀ G : G2, dull (.acc false l) → (∀ o, l = .data o → toData σ t o) → (∀ o, l = .wait o → isClose p.task ∨ t = .worker o) → G.busy = (g t).busy → G.fl = (g t).fl → G.ev = (g t).ev →
      (G.mode = (g t).mode ∨ (g t).mode = 0 ∧ G.mode = 1) → wq σ φ (isClose p.task) t (f (s.mem l)) (fun g' _ => g'.full σ φ) G → ∃ g', J σ φ (tr ++ [entry t p (.acc false l)]) S lim g' := by
    intro G h1 h2 h8 h3 h4 h5 h6 h7
    exact ⟨_, hJ.plain hp hrun (by rw [how]) (by rw [hmem]; simp) (by rw [hmem]; simp) (by rw [hmem]; simp) (by rw [hmem]; simp) (by rw [hmem]; simp) hne (by rw [hch]; simp) h1
      (fun w o e => h2 o (by cases e; rfl)) (fun w o e => h8 o (by cases e; rfl)) h3 h4 h5 h6 h7⟩
  have htouch : ∀ e c i fd, isInfo e l → (g t).ev = some (e, c, i, fd) → wq σ φ (isClose p.task) t (f (s.mem l)) (fun g' _ => g'.full σ φ) (g t) →
      ∃ g', J σ φ (tr ++ [entry t p (.acc false l)]) S lim g' := by
    intro e c i fd hl hev hw
    obtain ⟨-, k2, k3, -⟩ := hJ.evt.ev t e c i fd hev
    refine ⟨_, hJ.into (G := g t) hrun ?_ ?_ (fun w o e => ?_) (fun w o e => ?_) hw⟩
    · rw [hmem]
      exact hJ.log.keep (fun _ => rfl) (fun _ => rfl) (fun w t' r _ h => hold_keep hp hrun (by rw [how]) w t' r h) (Or.inl ⟨fun w r h => hold_keep hp hrun (by rw [how]) w t r h, rfl, rfl⟩)
    · rw [hmem, hne, hch]
      exact hJ.evt.touch rfl hl rfl hev (by simp) (fun _ _ => rfl) (fun _ _ => rfl) (fun _ => rfl) (fun _ => rfl) (by rw [k2, k3]; exact hev) rfl
    · cases e
      rcases hl with hl | hl <;> cases hl
    · cases e
      rcases hl with hl | hl <;> cases hl
  cases l
  case shape o =>
    have := hA.1 o (c'.made tr.length _ false o last_get (Or.inl rfl))
    rw [hmem] at this
    exact hplain (g t) trivial (by simp) (by simp) rfl rfl rfl (Or.inl rfl) (by rw [this]; exact hq)
  case fmt o =>
    have h1 : (γ t).outs o := by
      have := b2.1
      simpa [Gh.may] using this
    have := hA.2 o (hpub o ((hi.core.th t).outs o h1).1)
    rw [hmem] at this
    exact hplain (g t) trivial (by simp) (by simp) rfl rfl rfl (Or.inl rfl) (by rw [this]; exact hq)
  case flag r =>
    have hh := hold_access hi.core hp b1 (r := r) (w := false) b2.1 (l := .flag r) rfl hrunt how
    refine ⟨_, hJ.into (G := { g t with fl := some (r, s.mem (.flag r)) }) hrun ?_ ?_ (by simp) (by simp) ?_⟩
    · rw [hmem]
      exact hJ.log.readFlag (fun w t' r h => hold_keep hp hrun (by rw [how]) w t' r h) hh
    · rw [hmem, hne, hch]
      exact hJ.evt.keep trivial (fun _ => rfl) (fun _ => rfl) (fun _ => rfl) (fun _ _ _ h => h) (Or.inl ⟨rfl, Or.inl rfl⟩)
    · exact hq _ (fun x hx => (hJ.log.fl t r x hx).1) (hJ.log.flag2 r)
  case ops r =>
    have hh := hold_access hi.core hp b1 (r := r) (w := false) b2.1 (l := .ops r) rfl hrunt how
    refine hplain { g t with mode := if (g t).mode = 0 then 1 else (g t).mode } trivial (by simp) (by simp) rfl rfl rfl ?_ (hq _ fun x hx hb => ?_)
    · dsimp only
      by_cases e : (g t).mode = 0
      · rw [if_pos e]; exact Or.inr ⟨e, rfl⟩
      · rw [if_neg e]; exact Or.inl rfl
    · obtain ⟨h1, h2⟩ := hJ.log.fl t r x hx
      rcases hJ.log.settled r with h3 | ⟨t2, v, h3⟩
      · rw [h1] at h3; exact h3
      · have h4 := (hJ.log.busy t2 r v h3).2
        have := hold_excl c' ho (hold_keep hp hrun (by rw [how]) _ _ _ h4) hh
        subst this
        rw [hb] at h3
        cases h3
  case ctx e =>
    obtain ⟨c, i, fd, h1, h2⟩ := hq
    have := (hJ.evt.ev t e c i fd h1).2.1
    exact htouch e c i fd (Or.inl rfl) h1 (by rw [this]; exact h2)
  case info e =>
    obtain ⟨c, i, fd, h1, h2⟩ := hq
    have := (hJ.evt.ev t e c i fd h1).2.2.1
    exact htouch e c i fd (Or.inr rfl) h1 (by rw [this]; exact h2)
  case evt e => exact hplain (g t) rfl (by simp) (by simp) rfl rfl rfl (Or.inl rfl) (hq _ fun c i fd h => (hJ.evt.ev t e c i fd h).2.2.2)
  case wait o => exact hplain (g t) trivial (by simp) (fun o' e => by cases e; exact hq.1) rfl rfl rfl (Or.inl rfl) hq.2
  case data o => exact hplain (g t) trivial (fun o' e => by cases e; exact hq.1) (by simp) rfl rfl rfl (Or.inl rfl) hq.2
  all_goals exact hplain (g t) trivial (by simp) (by simp) rfl rfl rfl (Or.inl rfl) (hq _)

theorem J.write (hJ : J σ φ tr s lim g) (hi : Inv U tr s γ pub lim) (hp : s.running t = some p) {l : Loc} {v : Val l} {f : Code Res} (hcode : p.code = .write l v f)
    (hS : S = { s with mem := s.mem.upd l v, running := set s.running t (some { p with code := f }) }) (c' : Core U (tr ++ [entry t p (.acc true l)]) S γ' pub' lim)
    (ho : Ordered U (tr ++ [entry t p (.acc true l)])) : ∃ g', J σ φ (tr ++ [entry t p (.acc true l)]) S lim g' := by
  have hq := hJ.code t p hp
  obtain ⟨b1, b2⟩ := hi.busy t p hp
  have hrun : S.running = set s.running t (some { p with code := f }) := by rw [hS]
  have hrunt : S.running t = some { p with code := f } := by rw [hrun, set_self]
  have how : S.owner = s.owner := by rw [hS]
  have hmem : S.mem = s.mem.upd l v := by rw [hS]
  have hne : S.nevt = s.nevt := by rw [hS]
  have hch : S.chan = s.chan := by rw [hS]
  rw [hcode] at hq b2
  simp only [wq] at hq
  simp only [wp] at b2
  have hkeep : ∀ w t' r, Hold tr s lim w t' r → Hold (tr ++ [entry t p (.acc true l)]) S lim w t' r := fun w t' r h => hold_keep hp hrun (by rw [how]) w t' r h
  have hplain : (∀ r, l ≠ .ops r) → (∀ r, l ≠ .flag r) → (∀ e, l ≠ .ctx e) → (∀ e, l ≠ .info e) → (∀ e, l ≠ .evt e) → dull (.acc true l) → (∀ o, l = .data o → toData σ t o) → (∀ o, l = .wait o → isClose p.task ∨ t = .worker o) →
      wq σ φ (isClose p.task) t f (fun g' _ => g'.full σ φ) (g t) → ∃ g', J σ φ (tr ++ [entry t p (.acc true l)]) S lim g' := by
    intro n1 n2 n3 n4 n5 h1 h2 h8 h7
    refine ⟨_, hJ.plain (G := g t) hp hrun (by rw [how]) (fun r => ?_) (fun r => ?_) (fun r => ?_) (fun r => ?_) (fun r => ?_) hne (by rw [hch]; simp) h1
      (fun w o e => h2 o (by cases e; rfl)) (fun w o e => h8 o (by cases e; rfl)) rfl rfl rfl (Or.inl rfl) h7⟩ <;> rw [hmem] <;> refine upd_ne _ _ ?_
    · exact (n1 r).symm
    · exact (n2 r).symm
    · exact (n3 r).symm
    · exact (n4 r).symm
    · exact (n5 r).symm
  cases l
  case shape o => exact hq.elim
  case evt o => exact hq.elim
  case ops r =>
    have hh := hold_access hi.core hp b1 (r := r) (w := true) b2.1 (l := .ops r) rfl hrunt how
    refine ⟨_, hJ.into hrun ?_ ?_ (by simp) (by simp) hq.2⟩
    · rw [hmem]
      exact hJ.log.writeOps hkeep (fun t1 t2 r w h1 h2 => hold_excl c' ho h1 h2) hh hq.1 v
    · rw [hmem, hne, hch]
      exact hJ.evt.keep trivial (fun _ => upd_ne _ _ (by simp)) (fun _ => upd_ne _ _ (by simp)) (fun _ => upd_ne _ _ (by simp)) (fun _ _ _ h => h) (Or.inl ⟨rfl, Or.inl rfl⟩)
  case flag r =>
    have hh := hold_access hi.core hp b1 (r := r) (w := true) b2.1 (l := .flag r) rfl hrunt how
    obtain ⟨⟨v', q1⟩, ⟨x, q2, q3⟩, q4, q5⟩ := hq
    refine ⟨_, hJ.into hrun ?_ ?_ (by simp) (by simp) q5⟩
    · rw [hmem]
      exact hJ.log.writeFlag hkeep (fun t1 t2 r w h1 h2 => hold_excl c' ho h1 h2) hh q1 q4 (hkeep _ _ _ (hJ.log.fl t r x q2).2)
    · rw [hmem, hne, hch]
      exact hJ.evt.keep trivial (fun _ => upd_ne _ _ (by simp)) (fun _ => upd_ne _ _ (by simp)) (fun _ => upd_ne _ _ (by simp)) (fun _ _ _ h => h) (Or.inl ⟨rfl, Or.inl rfl⟩)
  case ctx e =>
    obtain ⟨q1, c, i, fd, q2, q3⟩ := hq
    obtain ⟨-, k2, k3, -⟩ := hJ.evt.ev t e c i fd q2
    refine ⟨_, hJ.into hrun ?_ ?_ (by simp) (by simp) q3⟩
    · rw [hmem]
      exact hJ.log.keep (fun _ => upd_ne _ _ (by simp)) (fun _ => upd_ne _ _ (by simp)) (fun w t' r _ h => hkeep w t' r h) (Or.inl ⟨fun w r h => hkeep w t r h, rfl, rfl⟩)
    · rw [hmem, hne, hch]
      exact hJ.evt.touch (l := .ctx e) rfl (Or.inl rfl) rfl q2 (fun _ => q1) (fun e' h => upd_ne _ _ (by simpa using h)) (fun e' h => upd_ne _ _ (by simp)) (fun e' => upd_ne _ _ (by simp))
        (by simp) (by rw [upd_self, upd_ne _ _ (by simp), k3]) rfl
  case info e =>
    obtain ⟨q1, c, i, fd, q2, q3⟩ := hq
    obtain ⟨-, k2, k3, -⟩ := hJ.evt.ev t e c i fd q2
    refine ⟨_, hJ.into hrun ?_ ?_ (by simp) (by simp) q3⟩
    · rw [hmem]
      exact hJ.log.keep (fun _ => upd_ne _ _ (by simp)) (fun _ => upd_ne _ _ (by simp)) (fun w t' r _ h => hkeep w t' r h) (Or.inl ⟨fun w r h => hkeep w t r h, rfl, rfl⟩)
    · rw [hmem, hne, hch]
      exact hJ.evt.touch (l := .info e) rfl (Or.inr rfl) rfl q2 (fun _ => q1) (fun e' h => upd_ne _ _ (by simp)) (fun e' h => upd_ne _ _ (by simpa using h)) (fun e' => upd_ne _ _ (by simp))
        (by simp) (by rw [upd_self, upd_ne _ _ (by simp), k2]) rfl
  case wait o => exact hplain (by simp) (by simp) (by simp) (by simp) (by simp) trivial (by simp) (fun o' e => by cases e; exact hq.1) hq.2
  case data o => exact hplain (by simp) (by simp) (by simp) (by simp) (by simp) trivial (fun o' e => by cases e; exact hq.1) (by simp) hq.2
  all_goals exact hplain (by simp) (by simp) (by simp) (by simp) (by simp) trivial (by simp) (by simp) hq

theorem set_same (g : Who → G2) (t : Who) : set g t (g t) = g := by
  funext t'
  by_cases e : t' = t
  · subst e; rw [set_self]
  · rw [set_ne _ _ e]

theorem J.next {s' : State} (hJ : J σ φ tr s lim g) (hi : Inv U tr s γ pub lim) (hp : s.running t = some p) (hn : next tr.length s t p.code = some (a, k, s'))
    (c' : Core U (tr ++ [entry t p a]) { s' with running := set s.running t (some { p with code := k }) } γ' pub' lim') (hlim : a = .unlock .factory ∨ lim' = lim)
    (ho : Ordered U (tr ++ [entry t p a])) (hA : Agree { s' with running := set s.running t (some { p with code := k }) } pub' σ φ) (hpub : ∀ o, pub o → pub' o) :
    ∃ g', J σ φ (tr ++ [entry t p a]) { s' with running := set s.running t (some { p with code := k }) } lim' g' := by
  have hq := hJ.code t p hp
  obtain ⟨b1, b2⟩ := hi.busy t p hp
  generalize hcode : p.code = c at hn hq b2
  cases c with
  | ret r => simp [Races.next] at hn
  | read l f =>
    simp only [Races.next, Option.some.injEq, Prod.mk.injEq] at hn
    obtain ⟨rfl, rfl, rfl⟩ := hn
    obtain rfl : lim' = lim := by simpa using hlim
    exact hJ.read hi hp hcode rfl c' ho hA hpub
  | write l v f =>
    simp only [Races.next, Option.some.injEq, Prod.mk.injEq] at hn
    obtain ⟨rfl, rfl, rfl⟩ := hn
    obtain rfl : lim' = lim := by simpa using hlim
    exact hJ.write hi hp hcode rfl c' ho
  | lock m f =>
    simp only [Races.next] at hn
    split at hn
    · rename_i hfree
      simp only [Option.some.injEq, Prod.mk.injEq] at hn
      obtain ⟨rfl, rfl, rfl⟩ := hn
      obtain rfl : lim' = lim := by simpa using hlim
      by_cases hm : m = .factory
      · subst hm
        exact ⟨_, hJ.passes hp rfl (fun t' _ => by rw [hfree]; simp) rfl rfl rfl trivial (by simp) (hq.1 rfl) hq.2⟩
      · have hpass : (g t).pass m = g t := by cases m <;> first | exact absurd rfl hm | rfl
        refine ⟨_, hJ.plain (G := g t) hp rfl (set_ne _ _ (Ne.symm hm)) (fun _ => rfl) (fun _ => rfl) (fun _ => rfl) (fun _ => rfl) (fun _ => rfl) rfl (fun _ _ _ h => h) trivial (by simp) (by simp)
          rfl rfl rfl (Or.inl rfl) (hpass ▸ hq.2)⟩
    · cases hn
  | unlock m f =>
    simp only [Races.next, Option.some.injEq, Prod.mk.injEq] at hn
    obtain ⟨rfl, rfl, rfl⟩ := hn
    by_cases hm : m = .factory
    · subst hm
      refine ⟨_, hJ.passes hp rfl (fun t' hne e => ?_) rfl rfl rfl trivial (by simp) (hq.1 rfl) hq.2⟩
      have := ((hi.core.th t).lock .factory).mpr b2.1
      rw [this] at e
      exact hne (Option.some.inj e).symm
    · have hpass : (g t).pass m = g t := by cases m <;> first | exact absurd rfl hm | rfl
      obtain rfl : lim' = lim := by simpa [hm] using hlim
      exact ⟨_, hJ.plain (G := g t) hp rfl (set_ne _ _ (Ne.symm hm)) (fun _ => rfl) (fun _ => rfl) (fun _ => rfl) (fun _ => rfl) (fun _ => rfl) rfl (fun _ _ _ h => h) trivial (by simp) (by simp)
          rfl rfl rfl (Or.inl rfl) (hpass ▸ hq.2)⟩
  | newLogger n f =>
    simp only [Races.next, Option.some.injEq, Prod.mk.injEq] at hn
    obtain ⟨rfl, rfl, rfl⟩ := hn
    obtain rfl : lim' = lim := by simpa using hlim
    exact ⟨_, hJ.plain (G := g t) hp rfl rfl (fun x => upd_ne s.mem (l := .name s.nlog) (l' := .ops x) n (by simp)) (fun x => upd_ne s.mem (l := .name s.nlog) (l' := .flag x) n (by simp)) (fun x => upd_ne s.mem (l := .name s.nlog) (l' := .ctx x) n (by simp)) (fun x => upd_ne s.mem (l := .name s.nlog) (l' := .info x) n (by simp)) (fun x => upd_ne s.mem (l := .name s.nlog) (l' := .evt x) n (by simp)) rfl (fun _ _ _ h => h) trivial (by simp) (by simp) rfl rfl rfl (Or.inl rfl) (hq _)⟩
  | newOutput sh f =>
    simp only [Races.next, Option.some.injEq, Prod.mk.injEq] at hn
    obtain ⟨rfl, rfl, rfl⟩ := hn
    obtain rfl : lim' = lim := by simpa using hlim
    have h1 : σ s.nout = sh := by
      rw [← hA.1 s.nout (Nat.lt_succ_self _)]
      exact upd_self _ _ _
    exact ⟨_, hJ.plain (G := g t) hp rfl rfl (fun x => upd_ne s.mem (l := .shape s.nout) (l' := .ops x) sh (by simp)) (fun x => upd_ne s.mem (l := .shape s.nout) (l' := .flag x) sh (by simp)) (fun x => upd_ne s.mem (l := .shape s.nout) (l' := .ctx x) sh (by simp)) (fun x => upd_ne s.mem (l := .shape s.nout) (l' := .info x) sh (by simp)) (fun x => upd_ne s.mem (l := .shape s.nout) (l' := .evt x) sh (by simp)) rfl (fun _ _ _ h => h) trivial (by simp) (by simp) rfl rfl rfl (Or.inl rfl) (hq _ h1)⟩
  | newEvent v f =>
    simp only [Races.next, Option.some.injEq, Prod.mk.injEq] at hn
    obtain ⟨rfl, rfl, rfl⟩ := hn
    obtain rfl : lim' = lim := by simpa using hlim
    refine ⟨_, hJ.into rfl ?_ ?_ (by simp) (by simp) (hq s.nevt (s.mem (.ctx s.nevt)) (s.mem (.info s.nevt)))⟩
    · exact hJ.log.keep (fun x => upd_ne s.mem (l := .evt s.nevt) (l' := .ops x) v (by simp)) (fun x => upd_ne s.mem (l := .evt s.nevt) (l' := .flag x) v (by simp)) (fun w t' r _ h => by refine hold_keep (k := f s.nevt) hp ?_ ?_ w t' r h <;> rfl)
        (Or.inl ⟨fun w r h => by refine hold_keep (k := f s.nevt) hp ?_ ?_ w t r h <;> rfl, rfl, rfl⟩)
    · exact hJ.evt.newEvent rfl rfl hi.core.evts v
  | go o f =>
    simp only [Races.next, Option.some.injEq, Prod.mk.injEq] at hn
    obtain ⟨rfl, rfl, rfl⟩ := hn
    obtain rfl : lim' = lim := by simpa using hlim
    exact ⟨_, hJ.plain (G := g t) hp rfl rfl (fun _ => rfl) (fun _ => rfl) (fun _ => rfl) (fun _ => rfl) (fun _ => rfl) rfl (fun _ _ _ h => h) trivial (by simp) (by simp) rfl rfl rfl (Or.inl rfl) hq⟩
  | send o e f =>
    simp only [Races.next] at hn
    split at hn
    · simp only [Option.some.injEq, Prod.mk.injEq] at hn
      obtain ⟨rfl, rfl, rfl⟩ := hn
      obtain rfl : lim' = lim := by simpa using hlim
      cases e with
      | none =>
        refine ⟨_, hJ.plain (G := g t) hp rfl rfl (fun _ => rfl) (fun _ => rfl) (fun _ => rfl) (fun _ => rfl) (fun _ => rfl) rfl (fun o2 e2 src hs => ?_) rfl (by simp) (by simp) rfl rfl rfl (Or.inl rfl) hq.2⟩
        dsimp only at hs
        by_cases eo : o2 = o
        · subst eo
          rw [set_self] at hs
          simpa using hs
        · rw [set_ne _ _ eo] at hs
          exact hs
      | some e =>
        obtain ⟨h1, c, i, fd, h2, h3⟩ := hq.1 e rfl
        refine ⟨_, hJ.into (G := g t) rfl ?_ ?_ (by simp) (by simp) hq.2⟩
        · exact hJ.log.keep (fun _ => rfl) (fun _ => rfl) (fun w t' r _ h => by refine hold_keep (k := f) hp ?_ ?_ w t' r h <;> rfl) (Or.inl ⟨fun w r h => by refine hold_keep (k := f) hp ?_ ?_ w t r h <;> rfl, rfl, rfl⟩)
        · rw [set_same]
          exact hJ.evt.send rfl rfl h2 h1 h3
    · cases hn
  | close o f =>
    simp only [Races.next] at hn
    split at hn
    · simp only [Option.some.injEq, Prod.mk.injEq] at hn
      obtain ⟨rfl, rfl, rfl⟩ := hn
      obtain rfl : lim' = lim := by simpa using hlim
      exact ⟨_, hJ.plain (G := g t) hp rfl rfl (fun _ => rfl) (fun _ => rfl) (fun _ => rfl) (fun _ => rfl) (fun _ => rfl) rfl (fun _ _ _ h => h) trivial (by simp) (by simp) rfl rfl rfl (Or.inl rfl) hq⟩
    · cases hn
  | load o f =>
    simp only [Races.next, Option.some.injEq, Prod.mk.injEq] at hn
    obtain ⟨rfl, rfl, rfl⟩ := hn
    obtain rfl : lim' = lim := by simpa using hlim
    exact ⟨_, hJ.plain (G := g t) hp rfl rfl (fun _ => rfl) (fun _ => rfl) (fun _ => rfl) (fun _ => rfl) (fun _ => rfl) rfl (fun _ _ _ h => h) trivial (by simp) (by simp) rfl rfl rfl (Or.inl rfl) (hq _)⟩
  | store o f =>
    simp only [Races.next, Option.some.injEq, Prod.mk.injEq] at hn
    obtain ⟨rfl, rfl, rfl⟩ := hn
    obtain rfl : lim' = lim := by simpa using hlim
    exact ⟨_, hJ.plain (G := g t) hp rfl rfl (fun _ => rfl) (fun _ => rfl) (fun _ => rfl) (fun _ => rfl) (fun _ => rfl) rfl (fun _ _ _ h => h) trivial (by simp) (by simp) rfl rfl rfl (Or.inl rfl) hq⟩
  | add o f =>
    simp only [Races.next, Option.some.injEq, Prod.mk.injEq] at hn
    obtain ⟨rfl, rfl, rfl⟩ := hn
    obtain rfl : lim' = lim := by simpa using hlim
    exact ⟨_, hJ.plain (G := g t) hp rfl rfl (fun _ => rfl) (fun _ => rfl) (fun _ => rfl) (fun _ => rfl) (fun _ => rfl) rfl (fun _ _ _ h => h) trivial (by simp) (fun w o' e => by cases e; exact hq.1) rfl rfl rfl (Or.inl rfl) hq.2⟩
  | done o f =>
    simp only [Races.next, Option.some.injEq, Prod.mk.injEq] at hn
    obtain ⟨rfl, rfl, rfl⟩ := hn
    obtain rfl : lim' = lim := by simpa using hlim
    exact ⟨_, hJ.plain (G := g t) hp rfl rfl (fun _ => rfl) (fun _ => rfl) (fun _ => rfl) (fun _ => rfl) (fun _ => rfl) rfl (fun _ _ _ h => h) trivial (by simp) (by simp) rfl rfl rfl (Or.inl rfl) hq⟩
  | waited o f =>
    simp only [Races.next] at hn
    split at hn
    · simp only [Option.some.injEq, Prod.mk.injEq] at hn
      obtain ⟨rfl, rfl, rfl⟩ := hn
      obtain rfl : lim' = lim := by simpa using hlim
      exact ⟨_, hJ.plain (G := g t) hp rfl rfl (fun _ => rfl) (fun _ => rfl) (fun _ => rfl) (fun _ => rfl) (fun _ => rfl) rfl (fun _ _ _ h => h) trivial (by simp) (by simp) rfl rfl rfl (Or.inl rfl) hq⟩
    · cases hn
  | halt => simp [Races.next] at hn
  | impossible => simp [Races.next] at hn

/-- What a step leaves of the outputs. -/
theorem agree_next {s' : State} (hi : Inv U tr s γ pub lim) (hp : s.running t = some p) (hn : Races.next tr.length s t p.code = some (a, k, s')) (hpub : ∀ o, pub o → pub' o)
    (hA : Agree s' pub' σ φ) : Agree s pub σ φ := by
  obtain ⟨b1, b2⟩ := hi.busy t p hp
  generalize hcode : p.code = c at hn b2
  have hsame : (∀ o, s'.mem (.shape o) = s.mem (.shape o)) → (∀ o, pub o → s'.mem (.fmt o) = s.mem (.fmt o)) → s'.nout = s.nout → Agree s pub σ φ := by
    intro h1 h2 h3
    exact ⟨fun o ho => by rw [← h1]; exact hA.1 o (by rw [h3]; exact ho), fun o ho => by rw [← h2 o ho]; exact hA.2 o (hpub o ho)⟩
  cases c with
  | write l v f =>
    simp only [Races.next, Option.some.injEq, Prod.mk.injEq] at hn
    obtain ⟨rfl, rfl, rfl⟩ := hn
    refine hsame (fun o => ?_) (fun o ho => ?_) rfl
    · refine upd_ne _ _ ?_
      rintro rfl
      exact absurd b2.1.1 (by simp)
    · refine upd_ne _ _ ?_
      rintro rfl
      rcases b2.1 with ⟨-, h⟩ | ⟨h, -⟩
      · exact ((hi.core.th t).own o h).1 ho
      · cases h
  | newOutput sh f =>
    simp only [Races.next, Option.some.injEq, Prod.mk.injEq] at hn
    obtain ⟨rfl, rfl, rfl⟩ := hn
    refine ⟨fun o ho => ?_, fun o ho => ?_⟩
    · rw [← hA.1 o (by show o < s.nout + 1; omega)]
      exact (upd_ne s.mem (l := .shape s.nout) (l' := .shape o) sh (by simp; omega)).symm
    · rw [← hA.2 o (hpub o ho)]
      exact (upd_ne s.mem (l := .shape s.nout) (l' := .fmt o) sh (by simp)).symm
  | newLogger n f =>
    simp only [Races.next, Option.some.injEq, Prod.mk.injEq] at hn
    obtain ⟨rfl, rfl, rfl⟩ := hn
    exact hsame (fun o => upd_ne s.mem (l := .name s.nlog) (l' := .shape o) n (by simp)) (fun o _ => upd_ne s.mem (l := .name s.nlog) (l' := .fmt o) n (by simp)) rfl
  | newEvent n f =>
    simp only [Races.next, Option.some.injEq, Prod.mk.injEq] at hn
    obtain ⟨rfl, rfl, rfl⟩ := hn
    exact hsame (fun o => upd_ne s.mem (l := .evt s.nevt) (l' := .shape o) n (by simp)) (fun o _ => upd_ne s.mem (l := .evt s.nevt) (l' := .fmt o) n (by simp)) rfl
  | _ =>
    simp only [Races.next] at hn
    (try split at hn) <;> simp only [reduceCtorEq, Option.some.injEq, Prod.mk.injEq] at hn <;> (obtain ⟨-, -, rfl⟩ := hn; exact hsame (fun _ => rfl) (fun _ _ => rfl) rfl)

/-- The first step of a call. -/
theorem first_info {i : Nat} {c : Task} {s' : State} (h : first i s t c = some (a, s')) :
    s'.mem = s.mem ∧ s'.nevt = s.nevt ∧ s'.nout = s.nout ∧ s'.owner = s.owner ∧ (∀ o e src, (some e, src) ∈ s'.chan o → (some e, src) ∈ s.chan o) ∧ dull a ∧ (∀ w l, a ≠ .acc w l) ∧
      ∀ o e, c = .event o e → ∃ src, a = .recv o (some e) src ∧ (some e, src) ∈ s.chan o := by
  have hsub : ∀ (o : Nat) (m : Option Nat × Nat) (q : List (Option Nat × Nat)), s.chan o = m :: q → ∀ o' e src, (some e, src) ∈ set s.chan o q o' → (some e, src) ∈ s.chan o' := by
    intro o m q hm o' e src hs
    by_cases eo : o' = o
    · subst eo
      rw [set_self] at hs
      rw [hm]
      exact List.mem_cons_of_mem _ hs
    · rw [set_ne _ _ eo] at hs
      exact hs
  cases t with
  | user t =>
    cases c <;> simp only [first, reduceCtorEq, Option.some.injEq, Prod.mk.injEq] at h <;> obtain ⟨rfl, rfl⟩ := h <;>
      exact ⟨rfl, rfl, rfl, rfl, fun _ _ _ h => h, trivial, by simp, by simp⟩
  | worker o =>
    cases c <;> simp only [first, reduceCtorEq] at h
    case begin o' =>
      split at h <;> simp only [reduceCtorEq, Option.some.injEq, Prod.mk.injEq] at h
      obtain ⟨rfl, rfl⟩ := h
      exact ⟨rfl, rfl, rfl, rfl, fun _ _ _ h => h, trivial, by simp, by simp⟩
    case tick o' =>
      split at h <;> simp only [reduceCtorEq, Option.some.injEq, Prod.mk.injEq] at h
      obtain ⟨rfl, rfl⟩ := h
      exact ⟨rfl, rfl, rfl, rfl, fun _ _ _ h => h, trivial, by simp, by simp⟩
    case event o' e =>
      split at h
      · rename_i hc
        obtain ⟨rfl, hw⟩ := hc
        split at h
        · rename_i e' src q hq
          split at h
          · rename_i ee
            subst ee
            simp only [Option.some.injEq, Prod.mk.injEq] at h
            obtain ⟨rfl, rfl⟩ := h
            refine ⟨rfl, rfl, rfl, rfl, hsub _ _ _ hq, trivial, by simp, ?_⟩
            intro o e hc
            cases hc
            exact ⟨src, rfl, by rw [hq]; exact List.mem_cons_self⟩
          · cases h
        · cases h
      · cases h
    case stop o' =>
      split at h
      · rename_i hc
        obtain ⟨rfl, hw⟩ := hc
        split at h
        · rename_i src q hq
          simp only [Option.some.injEq, Prod.mk.injEq] at h
          obtain ⟨rfl, rfl⟩ := h
          exact ⟨rfl, rfl, rfl, rfl, hsub _ _ _ hq, trivial, by simp, by simp⟩
        · cases h
      · cases h

theorem J.call {c : Task} {s' : State} (hJ : J σ φ tr s lim g) (hall : ∀ o, answers (σ o) (φ o) ≤ 2) (hr : s.running t = none) (hf : first tr.length s t c = some (a, s'))
    (hw : ∀ o, isWork o c → t = .worker o) :
    ∃ g', J σ φ (tr ++ [⟨t, tr.length, c, a⟩]) { s' with running := set s.running t (some ⟨tr.length, c, c.code⟩) } lim g' := by
  obtain ⟨f1, f2, f3, f4, f5, f6, f7, f8⟩ := first_info hf
  have hfull : (g t).full σ φ := fun r v e => by rw [hJ.idle t hr] at e; cases e
  have hlog : ∀ G : G2, G.busy = none → G.fl = none → JL σ φ s'.mem (Hold (tr ++ [⟨t, tr.length, c, a⟩]) { s' with running := set s.running t (some ⟨tr.length, c, c.code⟩) } lim) (set g t G) := by
    intro G h1 h2
    rw [f1]
    refine hJ.log.keep (fun _ => rfl) (fun _ => rfl) (fun w t' r hne h => ?_) (Or.inr ⟨hfull, h1, h2⟩)
    exact h.app (fun q hq => ⟨q, by rw [← hq]; exact set_ne _ _ hne, rfl⟩) fun h => ⟨by rw [← h]; exact congrFun f4 _, rfl⟩
  by_cases hev : ∃ o e, c = .event o e
  · obtain ⟨o, e, rfl⟩ := hev
    obtain ⟨src, rfl, h1⟩ := f8 o e rfl
    refine ⟨_, hJ.into (p := ⟨tr.length, .event o e, (Task.event o e).code⟩) (G := { ev := some (e, s.mem (.ctx e), s.mem (.info e), (s.mem (.evt e)).2), mode := 2 }) rfl (hlog _ rfl rfl) ?_ (by simp) (by simp)
      (wq_task hall (fun ord e => ⟨ord, e⟩) rfl hw ?_)⟩
    · have := hJ.evt.recv (x := ⟨t, tr.length, .event o e, .recv o (some e) src⟩) rfl rfl h1 f5
      show JE φ _ s'.mem s'.nevt s'.chan _
      rw [f1, f2]
      exact this
    · intro o' e' he
      cases he
      exact ⟨_, _, _, rfl, (hJ.evt.chan o e src h1).2.1⟩
  · refine ⟨_, hJ.into (p := ⟨tr.length, c, c.code⟩) (G := {}) rfl (hlog _ rfl rfl) ?_ (fun w o e => absurd e (f7 _ _)) (fun w o e => absurd e (f7 _ _)) (wq_task hall (fun ord e => ⟨ord, e⟩) rfl hw ?_)⟩
    · show JE φ _ s'.mem s'.nevt s'.chan _
      rw [f1, f2]
      exact hJ.evt.keep f6 (fun _ => rfl) (fun _ => rfl) (fun _ => rfl) f5 (Or.inr rfl)
    · intro o e he
      exact absurd ⟨o, e, he⟩ hev

theorem J.ret {res : Res} (hJ : J σ φ tr s lim g) (hp : s.running t = some p) (hc : p.code = .ret res) :
    ∃ g', J σ φ (tr ++ [entry t p (.ret res)]) { s with running := set s.running t none } lim g' := by
  have hfull : (g t).full σ φ := by
    have := hJ.code t p hp
    rw [hc] at this
    exact this
  refine ⟨set g t {}, ?_, ?_, fun i b w o hi hb => ?_, fun i b w o hi hb => ?_, fun t' q hq => ?_, fun t' hq => ?_⟩
  · refine hJ.log.keep (fun _ => rfl) (fun _ => rfl) (fun w t' r hne h => ?_) (Or.inr ⟨hfull, rfl, rfl⟩)
    exact h.app (fun q hq => ⟨q, by rw [← hq]; exact set_ne _ _ hne, rfl⟩) fun h => ⟨h, rfl⟩
  · exact hJ.evt.keep trivial (fun _ => rfl) (fun _ => rfl) (fun _ => rfl) (fun _ _ _ h => h) (Or.inr rfl)
  · rcases get_app.mp hi with hi | ⟨-, rfl⟩
    · exact hJ.data i b w o hi hb
    · cases hb
  · rcases get_app.mp hi with hi | ⟨-, rfl⟩
    · exact hJ.wait i b w o hi hb
    · cases hb
  · dsimp only at hq
    by_cases e : t' = t
    · subst e
      rw [set_self] at hq
      cases hq
    · rw [set_ne _ _ e] at hq ⊢
      exact hJ.code t' q hq
  · dsimp only at hq
    by_cases e : t' = t
    · subst e
      rw [set_self]
    · rw [set_ne _ _ e] at hq ⊢
      exact hJ.idle t' hq

theorem j_start : J σ φ [] { mem := emptyMem } 0 fun _ => {} := by
  refine ⟨⟨?_, ?_, ?_, ?_⟩, ⟨?_, ?_, ?_, ?_, ?_, ?_, ?_, ?_, ?_⟩, ?_, ?_, ?_, ?_⟩ <;> intros <;> simp_all [emptyMem]

/-- Executions keep it. -/
theorem exec_info (h : Exec tr s) : Obtained U tr → Ordered U tr → NoSetFormatter tr →
    ∃ γ pub lim, Inv U tr s γ pub lim ∧ ∀ σ φ, (∀ o, answers (σ o) (φ o) ≤ 2) → Agree s pub σ φ → ∃ g, J σ φ tr s lim g := by
  induction h with
  | start => exact fun _ _ _ => ⟨_, _, _, inv_start, fun σ φ _ _ => ⟨_, j_start⟩⟩
  | @call tr s t c a s' hx hr hord hf ih =>
    intro hob hor hns
    obtain ⟨γ, pub, lim, hi, hj⟩ := ih (obtained_restrict hob) (ordered_restrict hor) (noSet_restrict hns)
    obtain ⟨Γ, h1, h2, h3⟩ := call_core hi.core (hi.idle t hr) hord hf hob hns
    refine ⟨_, _, _, ⟨h1, fun t' ht' => ?_, fun t' p' ht' => ?_⟩, fun σ φ hall hA => ?_⟩
    · by_cases e : t' = t
      · subst e; simp [set_self] at ht'
      · rw [set_ne _ _ e]; exact hi.idle t' ((set_ne s.running (some ⟨tr.length, c, c.code⟩) e).symm.trans ht')
    · by_cases e : t' = t
      · subst e; simp only [set_self, Option.some.injEq] at ht'; subst ht'; rw [set_self]; exact ⟨h3, h2⟩
      · rw [set_ne _ _ e]; exact hi.busy t' p' ((set_ne s.running (some ⟨tr.length, c, c.code⟩) e).symm.trans ht')
    · obtain ⟨f1, -, f3, -⟩ := first_info hf
      obtain ⟨g, hg⟩ := hj σ φ hall ⟨fun o ho => by rw [← f1]; exact hA.1 o (by show o < s'.nout; rw [f3]; exact ho), fun o ho => by rw [← f1]; exact hA.2 o ho⟩
      exact hg.call hall hr hf (first_core hi.core hf).2.2.work
  | @step tr s t p a k s' hx hr hn ih =>
    intro hob hor hns
    obtain ⟨γ, pub, lim, hi, hj⟩ := ih (obtained_restrict hob) (ordered_restrict hor) (noSet_restrict hns)
    obtain ⟨b1, b2⟩ := hi.busy t p hr
    obtain ⟨γ', pub', lim', h1, h2, h3, h4, h5, h6⟩ := step_core hi.core (ordered_restrict hor) hr b1 b2 hn
    have hrun : s'.running = s.running := next_running hn
    have hcore : Core U (tr ++ [entry t p a]) { s' with running := set s.running t (some { p with code := k }) } γ' pub' lim' := by
      refine h1.calls _ ?_ ?_
      · intro t' p' hp'
        by_cases e : t' = t
        · subst e
          rw [set_self] at hp'
          cases hp'
          exact h1.runs t' p (hrun ▸ hr)
        · rw [set_ne _ _ e] at hp'
          exact h1.runs t' p' (hrun ▸ hp')
      · intro t' p' o hp'
        by_cases e : t' = t
        · subst e
          rw [set_self] at hp'
          cases hp'
          exact h1.work t' p o (hrun ▸ hr)
        · rw [set_ne _ _ e] at hp'
          exact h1.work t' p' o (hrun ▸ hp')
    refine ⟨γ', pub', lim', ⟨hcore, fun t' ht' => ?_, fun t' p' ht' => ?_⟩, fun σ φ hall hA => ?_⟩
    · by_cases e : t' = t
      · subst e; simp [set_self] at ht'
      · rw [h4 t' e]; exact hi.idle t' ((set_ne s.running (some { p with code := k }) e).symm.trans ht')
    · by_cases e : t' = t
      · subst e; simp only [set_self, Option.some.injEq] at ht'; subst ht'; exact ⟨h3, h2⟩
      · rw [h4 t' e]; exact hi.busy t' p' ((set_ne s.running (some { p with code := k }) e).symm.trans ht')
    · obtain ⟨g, hg⟩ := hj σ φ hall (agree_next hi hr hn h5 ⟨hA.1, hA.2⟩)
      exact hg.next hi hr hn hcore h6 hor hA h5
  | @ret tr s t p res hx hr hc ih =>
    intro hob hor hns
    obtain ⟨γ, pub, lim, hi, hj⟩ := ih (obtained_restrict hob) (ordered_restrict hor) (noSet_restrict hns)
    obtain ⟨b1, b2⟩ := hi.busy t p hr
    rw [hc] at b2
    obtain ⟨Γ, pub', h1, h2, h3⟩ := ret_core hi.core hr b2
    refine ⟨_, _, _, ⟨h1, fun t' ht' => ?_, fun t' p' ht' => ?_⟩, fun σ φ hall hA => ?_⟩
    · by_cases e : t' = t
      · subst e; rw [set_self]; exact h2
      · rw [set_ne _ _ e]; exact hi.idle t' ((set_ne s.running none e).symm.trans ht')
    · by_cases e : t' = t
      · subst e; simp [set_self] at ht'
      · rw [set_ne _ _ e]; exact hi.busy t' p' ((set_ne s.running none e).symm.trans ht')
    · obtain ⟨g, hg⟩ := hj σ φ hall ⟨hA.1, fun o ho => hA.2 o (h3 o ho)⟩
      exact hg.ret hr hc

/-- Accesses to caller information are ordered. -/
theorem JE.ordered (h : JE φ tr mem nevt chan g) {i j : Nat} {a b : Entry} {w w' : Bool} {l : Loc} {e : Nat} (hl : isInfo e l) (hij : i < j) (hi : tr[i]? = some a) (hj : tr[j]? = some b)
    (ha : a.act = .acc w l) (hb : b.act = .acc w' l) (hw : w = true ∨ w' = true) (hne : a.who ≠ b.who) : Before U tr i j := by
  have hsame : ∀ t t', Made tr t e → Made tr t' e → t = t' := by
    rintro t t' ⟨k, c, k1, k2, k3⟩ ⟨k', c', k1', k2', k3'⟩
    have := h.news k k' c c' e k1 k1' k3 k3'
    subst this
    rw [k1] at k1'
    cases k1'
    exact k2.symm.trans k2'
  rcases h.acc i a w l e hi ha hl with h1 | ⟨rfl, h1⟩ <;> rcases h.acc j b w' l e hj hb hl with h2 | ⟨rfl, h2⟩
  · exact absurd (hsame _ _ h1 h2) hne
  · obtain rfl : w = true := by simpa using hw
    obtain ⟨k, c, o, src, d, room, k1, k2, k3, k4, k5, k6, k7⟩ := h2
    have hd := hsame _ _ h1 (h.sends src d o e room k6 k7)
    have hlt := h.early i src a d l o e room hi ha hl k6 k7
    exact .more (.more (.one (.seq hlt hi k6 hd)) (.message k2 k3 k5)) (.seq k1 k3 hj k4)
  · obtain rfl : w' = true := by simpa using hw
    obtain ⟨k, c, o, src, d, room, k1, k2, k3, k4, k5, k6, k7⟩ := h1
    have := h.early j src b d l o e room hj hb hl k6 k7
    omega
  · simp at hw

/-- With known flags, only the counter of workers and the buffers of synchronous memory outputs are raced for. -/
theorem exec_known (h : Exec tr s) (hob : Obtained U tr) (hor : Ordered U tr) (hns : NoSetFormatter tr) (hk : KnownFlags s) {l : Loc} (hr : Race U tr l) :
    (∃ o ord, l = .wait o ∧ ∃ a ∈ tr, a.task = .close ord) ∨ ∃ o, l = .data o ∧ o < s.nout ∧ (s.mem (.shape o)).how = .sync ∧ (s.mem (.shape o)).sink = .memory := by
  obtain ⟨γ, pub, lim, hi, hj⟩ := exec_info h hob hor hns
  obtain ⟨g, hJ⟩ := hj (fun o => if o < s.nout then s.mem (.shape o) else {}) (fun o => if o < s.nout then s.mem (.fmt o) else none) (fun o => by
    by_cases ho : o < s.nout
    · simp only [ho, if_true]; exact hk o ho
    · simp only [ho, if_false]; decide) ⟨fun o ho => by simp only [ho, if_true], fun o ho => by simp only [hi.core.pubn o ho, if_true]⟩
  have he := exec_safe h hob hor hns hr
  obtain ⟨i, j, a, b, w, w', h1, h2, h3, h4, h5, h6, h7, h8⟩ := hr
  cases l <;> simp only [exempt] at he
  case wait o =>
    rcases hJ.wait i a w o h1 h4 with ⟨ord, e⟩ | ka
    · exact Or.inl ⟨o, ord, rfl, a, List.mem_of_getElem? h1, e⟩
    · rcases hJ.wait j b w' o h2 h5 with ⟨ord, e⟩ | kb
      · exact Or.inl ⟨o, ord, rfl, b, List.mem_of_getElem? h2, e⟩
      · exact absurd (ka.trans kb.symm) h3
  case ctx e => exact absurd (hJ.evt.ordered (Or.inl rfl) h7 h1 h2 h4 h5 h6 h3) h8
  case info e => exact absurd (hJ.evt.ordered (Or.inr rfl) h7 h1 h2 h4 h5 h6 h3) h8
  case data o =>
    refine Or.inr ⟨o, rfl, ?_⟩
    have ka := hJ.data i a w o h1 h4
    have kb := hJ.data j b w' o h2 h5
    have hs : ((if o < s.nout then s.mem (.shape o) else {}) : Shape).how = .sync ∧ ((if o < s.nout then s.mem (.shape o) else {}) : Shape).sink = .memory := by
      rcases ka with ka | ka
      · rcases kb with kb | kb
        · exact absurd (ka.trans kb.symm) h3
        · exact kb
      · exact ka
    by_cases ho : o < s.nout
    · rw [if_pos ho] at hs
      exact ⟨ho, hs⟩
    · rw [if_neg ho] at hs
      simp at hs

end Log4g.Races
