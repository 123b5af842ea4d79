import Verif.Lemmas.Races

/-! # Data races: the invariant -/

namespace Log4g.Races
open Spec

variable {U : Nat → Nat → Prop}

/-! ## What happens before what -/

theorem get_app {tr : List Entry} {x a : Entry} {i : Nat} : (tr ++ [x])[i]? = some a ↔ tr[i]? = some a ∨ i = tr.length ∧ a = x := by
  rcases Nat.lt_trichotomy i tr.length with h | h | h
  · rw [List.getElem?_append_left h]
    exact ⟨Or.inl, fun h' => h'.elim id fun e => by omega⟩
  · subst h
    simp [eq_comm]
  · rw [List.getElem?_eq_none (by simp; omega), List.getElem?_eq_none (by omega)]
    simp
    omega

theorem get_left {tr z : List Entry} {a : Entry} {i : Nat} (h : tr[i]? = some a) : (tr ++ z)[i]? = some a := by
  have : i < tr.length := (List.getElem?_eq_some_iff.mp h).1
  rw [List.getElem?_append_left this, h]

theorem get_lt {tr : List Entry} {a : Entry} {i : Nat} (h : tr[i]? = some a) : i < tr.length := (List.getElem?_eq_some_iff.mp h).1

theorem get_restrict {tr z : List Entry} {a : Entry} {i : Nat} (hi : i < tr.length) (h : (tr ++ z)[i]? = some a) : tr[i]? = some a := by
  rwa [List.getElem?_append_left hi] at h

theorem sync_lt {tr : List Entry} {i j : Nat} (h : Sync U tr i j) : i < j ∧ j < tr.length := by
  cases h <;> refine ⟨‹_›, ?_⟩ <;> first | assumption | exact get_lt ‹tr[j]? = some _›

theorem before_lt {tr : List Entry} {i j : Nat} (h : Before U tr i j) : i < j ∧ j < tr.length := by
  induction h with
  | one h => exact sync_lt h
  | more _ h ih => have := sync_lt h; omega

theorem sync_app {tr z : List Entry} {i j : Nat} (h : Sync U tr i j) : Sync U (tr ++ z) i j := by
  cases h with
  | seq h1 h2 h3 h4 => exact .seq h1 (get_left h2) (get_left h3) h4
  | lock h1 h2 h3 h4 h5 => exact .lock h1 (get_left h2) (get_left h3) h4 h5
  | go h1 h2 h3 h4 h5 => exact .go h1 (get_left h2) (get_left h3) h4 h5
  | message h1 h2 h3 => exact .message h1 (get_left h2) h3
  | room h1 h2 h3 => exact .room h1 (get_left h2) h3
  | atomic h1 h2 h3 h4 h5 => exact .atomic h1 (get_left h2) (get_left h3) h4 h5
  | done h1 h2 h3 h4 h5 => exact .done h1 (get_left h2) (get_left h3) h4 h5
  | user h1 h2 h3 => exact .user h1 (by simp; omega) h3

theorem before_app {tr z : List Entry} {i j : Nat} (h : Before U tr i j) : Before U (tr ++ z) i j := by
  induction h with
  | one h => exact .one (sync_app h)
  | more _ h ih => exact .more ih (sync_app h)

theorem sync_restrict {tr z : List Entry} {i j : Nat} (hj : j < tr.length) (h : Sync U (tr ++ z) i j) : Sync U tr i j := by
  have hi := (sync_lt h).1
  cases h with
  | seq h1 h2 h3 h4 => exact .seq h1 (get_restrict (by omega) h2) (get_restrict hj h3) h4
  | lock h1 h2 h3 h4 h5 => exact .lock h1 (get_restrict (by omega) h2) (get_restrict hj h3) h4 h5
  | go h1 h2 h3 h4 h5 => exact .go h1 (get_restrict (by omega) h2) (get_restrict hj h3) h4 h5
  | message h1 h2 h3 => exact .message h1 (get_restrict hj h2) h3
  | room h1 h2 h3 => exact .room h1 (get_restrict hj h2) h3
  | atomic h1 h2 h3 h4 h5 => exact .atomic h1 (get_restrict (by omega) h2) (get_restrict hj h3) h4 h5
  | done h1 h2 h3 h4 h5 => exact .done h1 (get_restrict (by omega) h2) (get_restrict hj h3) h4 h5
  | user h1 h2 h3 => exact .user h1 hj h3

theorem before_restrict {tr z : List Entry} {i j : Nat} (h : Before U (tr ++ z) i j) : j < tr.length → Before U tr i j := by
  induction h with
  | one h => exact fun hj => .one (sync_restrict hj h)
  | more _ h ih =>
    intro hj
    have := sync_lt h
    exact .more (ih (by omega)) (sync_restrict hj h)

theorem before_trans {tr : List Entry} {i j k : Nat} (h : Before U tr i j) (h' : Before U tr j k) : Before U tr i k := by
  induction h' with
  | one h' => exact .more h h'
  | more _ h' ih => exact .more ih h'

theorem obtained_restrict {tr z : List Entry} (h : Obtained U (tr ++ z)) : Obtained U tr := by
  intro q b hb
  obtain ⟨h1, h2⟩ := h q b ⟨get_left hb.1, hb.2⟩
  have hq := get_lt hb.1
  refine ⟨fun r hr => ?_, fun o ho => ?_⟩
  · obtain ⟨k, e, h3, h4, h5⟩ := h1 r hr
    have := (before_lt h5).1
    exact ⟨k, e, get_restrict (by omega) h3, h4, before_restrict h5 hq⟩
  · obtain ⟨k, e, os, h3, h4, h5, h6⟩ := h2 o ho
    have := (before_lt h6).1
    exact ⟨k, e, os, get_restrict (by omega) h3, h4, h5, before_restrict h6 hq⟩

theorem finished_restrict {tr z : List Entry} {p q : Nat} (hq : q < tr.length) (h : Finished U (tr ++ z) p q) : Finished U tr p q := by
  obtain ⟨k, e, res, h1, h2, h3, h4⟩ := h
  have := (before_lt h4).1
  exact ⟨k, e, res, get_restrict (by omega) h1, h2, h3, before_restrict h4 hq⟩

theorem ordered_restrict {tr z : List Entry} (h : Ordered U (tr ++ z)) : Ordered U tr := by
  intro p q a b ha hb hw hc
  exact (h p q a b ⟨get_left ha.1, ha.2⟩ ⟨get_left hb.1, hb.2⟩ hw hc).imp (finished_restrict (get_lt hb.1)) (finished_restrict (get_lt ha.1))

theorem noSet_restrict {tr z : List Entry} (h : NoSetFormatter (tr ++ z)) : NoSetFormatter tr := fun i a o f hi => h i a o f (get_left hi)

/-! ## Knowledge -/

/-- A goroutine has seen a step. -/
def Kn (U : Nat → Nat → Prop) (tr : List Entry) (t : Who) (i : Nat) : Prop := ∃ (j : Nat) (b : Entry), tr[j]? = some b ∧ b.who = t ∧ (i = j ∨ Before U tr i j)

def fieldOf : Loc → Option Nat
  | .name r => some r
  | .level r => some r
  | .parent r => some r
  | .ops r => some r
  | .skip r => some r
  | .flag r => some r
  | _ => none

def isGet : Task → Prop
  | .getLogger _ => True
  | _ => False

def locked : Task → Prop
  | .getLogger _ => True
  | .setConfig _ _ => True
  | _ => False

def isLog : Task → Prop
  | .log _ _ _ => True
  | _ => False

/-- The lock a variable is under. -/
def under (task : Task) : Loc → Mx → Prop
  | .root, m => m = .factory
  | .loggers, m => m = .factory
  | .fmtCreators, m => m = .manager
  | .outCreators, m => m = .manager
  | .formats, m => m = .manager
  | .outputs, m => m = .manager
  | .config, m => m = .manager
  | .file o, m => m = .roll o
  | l, m => (fieldOf l).isSome = true ∧ locked task ∧ m = .factory

inductive Cls
  | under (m : Mx)
  | glog (r : Nat)
  | out (o : Nat)
  | shp (o : Nat)
  | evt (e : Nat)

def cls : Cls → Entry → Prop
  | .under m, a => ∃ (w : Bool) (l : Loc), a.act = .acc w l ∧ Races.under a.task l m
  | .glog r, a => ∃ (w : Bool) (l : Loc), a.act = .acc w l ∧ fieldOf l = some r ∧ isGet a.task
  | .out o, a => a.act = .acc true (.shape o) ∨ a.act = .acc true (.fmt o)
  | .shp o, a => a.act = .acc true (.shape o)
  | .evt e, a => a.act = .acc true (.evt e)

def KnC (U : Nat → Nat → Prop) (tr : List Entry) (t : Who) (c : Cls) : Prop := ∀ (i : Nat) (a : Entry), tr[i]? = some a → cls c a → Kn U tr t i

def AllHB (U : Nat → Nat → Prop) (tr : List Entry) (c : Cls) (j : Nat) : Prop := ∀ (i : Nat) (a : Entry), tr[i]? = some a → cls c a → i = j ∨ Before U tr i j

theorem kn_app {tr z : List Entry} {t : Who} {i : Nat} (h : Kn U tr t i) : Kn U (tr ++ z) t i := by
  obtain ⟨j, b, h1, h2, h3⟩ := h
  exact ⟨j, b, get_left h1, h2, h3.imp id before_app⟩

theorem kn_self {tr : List Entry} {a : Entry} {i : Nat} (h : tr[i]? = some a) : Kn U tr a.who i := ⟨i, a, h, rfl, Or.inl rfl⟩

theorem kn_before {tr : List Entry} {t : Who} {i j : Nat} (h : i = j ∨ Before U tr i j) (h' : Kn U tr t j) : Kn U tr t i := by
  obtain ⟨k, b, h1, h2, h3⟩ := h'
  refine ⟨k, b, h1, h2, ?_⟩
  rcases h with rfl | h
  · exact h3
  · rcases h3 with rfl | h3
    · exact Or.inr h
    · exact Or.inr (before_trans h h3)

theorem kn_last {tr : List Entry} {x : Entry} {i : Nat} (h : Kn U tr x.who i) : Before U (tr ++ [x]) i tr.length := by
  obtain ⟨j, b, h1, h2, h3⟩ := h
  have hs : Sync U (tr ++ [x]) j tr.length := .seq (get_lt h1) (get_left h1) (get_app.mpr (Or.inr ⟨rfl, rfl⟩)) h2
  rcases h3 with rfl | h3
  · exact .one hs
  · exact .more (before_app h3) hs

theorem knc_app {tr : List Entry} {x : Entry} {t : Who} {c : Cls} (h : KnC U tr t c) (hx : cls c x → x.who = t) : KnC U (tr ++ [x]) t c := by
  intro i a hi hc
  rcases get_app.mp hi with hi | ⟨rfl, rfl⟩
  · exact kn_app (h i a hi hc)
  · exact ⟨tr.length, a, hi, hx hc, Or.inl rfl⟩

theorem all_app {tr : List Entry} {x : Entry} {j : Nat} {c : Cls} (h : AllHB U tr c j) (hx : ¬ cls c x) : AllHB U (tr ++ [x]) c j := by
  intro i a hi hc
  rcases get_app.mp hi with hi | ⟨rfl, rfl⟩
  · exact (h i a hi hc).imp id before_app
  · exact absurd hc hx

theorem all_last {tr : List Entry} {x : Entry} {c : Cls} (h : KnC U tr x.who c) : AllHB U (tr ++ [x]) c tr.length := by
  intro i a hi hc
  rcases get_app.mp hi with hi | ⟨rfl, rfl⟩
  · exact Or.inr (kn_last (h i a hi hc))
  · exact Or.inl rfl

theorem knc_of_all {tr : List Entry} {t : Who} {j : Nat} {c : Cls} (h : AllHB U tr c j) (hj : Kn U tr t j) : KnC U tr t c :=
  fun i a hi hc => kn_before (h i a hi hc) hj

/-! ## The invariant -/

/-- Variables that may be raced for. -/
def exempt : Loc → Prop
  | .wait _ => True
  | .data _ => True
  | .ctx _ => True
  | .info _ => True
  | _ => False

/-- What is known of a goroutine. -/
structure Know (U : Nat → Nat → Prop) (tr : List Entry) (s : State) (pub : Nat → Prop) (lim : Nat) (t : Who) (Γ : Gh) : Prop where
  lock : ∀ (m : Mx), s.owner m = some t ↔ Γ.holds m
  held : ∀ (m : Mx), Γ.holds m → KnC U tr t (.under m)
  fac : Γ.fac = true → Γ.base = lim ∧ Γ.n = s.nlog ∧ Γ.lmap = s.mem .loggers
  view : Γ.view ≤ lim
  seen : ∀ (r : Nat), r < Γ.view → KnC U tr t (.glog r)
  own : ∀ (o : Nat), Γ.own o → ¬ pub o ∧ o < s.nout
  mine : ∀ (o : Nat), Γ.own o → ∀ (i : Nat) (a : Entry) (w : Bool), tr[i]? = some a → a.act = .acc true (.shape o) ∨ a.act = .acc w (.fmt o) → a.who = t
  outs : ∀ (o : Nat), Γ.outs o → pub o ∧ KnC U tr t (.out o)
  shp : ∀ (o : Nat), Γ.shp o → o < s.nout ∧ KnC U tr t (.shp o)
  evs : ∀ (e : Nat), Γ.evs e → e < s.nevt ∧ KnC U tr t (.evt e)

structure Core (U : Nat → Nat → Prop) (tr : List Entry) (s : State) (γ : Who → Gh) (pub : Nat → Prop) (lim : Nat) : Prop where
  th : ∀ (t : Who), Know U tr s pub lim t (γ t)
  inj : ∀ (t : Who) (t' : Who) (o : Nat), (γ t).own o → (γ t').own o → t = t'
  lt : lim ≤ s.nlog
  free : ∀ (m : Mx), s.owner m = none → ∀ (i : Nat) (a : Entry), tr[i]? = some a → cls (.under m) a → ∃ (u : Nat) (b : Entry), tr[u]? = some b ∧ b.act = .unlock m ∧ Before U tr i u
  nofac : s.owner .factory = none → lim = s.nlog
  root : ∀ (r : Nat), s.mem .root = some r → r < s.nlog
  loggers : ∀ x ∈ s.mem .loggers, x.2 < s.nlog
  parent : ∀ (r : Nat) (p : Nat), s.mem (.parent r) = some p → p < r
  used : ∀ (i : Nat) (a : Entry) (w : Bool) (l : Loc) (r : Nat), tr[i]? = some a → a.act = .acc w l → fieldOf l = some r → ¬ locked a.task →
    r < lim ∧ (sets a.task = some r ∨ isLog a.task ∧ w = false)
  pubn : ∀ (o : Nat), pub o → o < s.nout
  made : ∀ (i : Nat) (a : Entry) (w : Bool) (o : Nat), tr[i]? = some a → a.act = .acc w (.shape o) ∨ a.act = .acc w (.fmt o) → o < s.nout
  evts : ∀ (i : Nat) (a : Entry) (w : Bool) (e : Nat), tr[i]? = some a → a.act = .acc w (.evt e) → e < s.nevt
  opsv : ∀ (r : Nat) (o : Nat), o ∈ s.mem (.ops r) → pub o ∧ ∃ (w : Nat) (b : Entry), tr[w]? = some b ∧ b.act = .acc true (.ops r) ∧ AllHB U tr (.out o) w
  outv : ∀ o ∈ (s.mem .outputs).map (·.2), pub o ∧ ∃ (w : Nat) (b : Entry), tr[w]? = some b ∧ b.act = .acc true .outputs ∧ AllHB U tr (.out o) w
  chan : ∀ (o : Nat) (e : Nat) (src : Nat), (some e, src) ∈ s.chan o → src < tr.length ∧ pub o ∧ e < s.nevt ∧ AllHB U tr (.out o) src ∧ AllHB U tr (.evt e) src
  wrk : ∀ (o : Nat), 1 ≤ s.worker o → o < s.nout ∧ ∃ (g : Nat) (b : Entry), tr[g]? = some b ∧ b.act = .go o ∧ AllHB U tr (.shp o) g
  wrk2 : ∀ (o : Nat), 2 ≤ s.worker o → KnC U tr (.worker o) (.shp o)
  retl : ∀ (q : Nat) (a : Entry) (r : Nat), tr[q]? = some a → a.act = .ret (.logger r) → ∃ (N : Nat), r < N ∧ N ≤ lim ∧ ∀ (r' : Nat), r' < N → AllHB U tr (.glog r') q
  reto : ∀ (q : Nat) (a : Entry) (os : List Nat), tr[q]? = some a → a.act = .ret (.outputs os) → ∀ o ∈ os, pub o ∧ AllHB U tr (.out o) q
  span : ∀ (i : Nat) (a : Entry), tr[i]? = some a → a.cid ≤ i ∧ ∃ (b : Entry), tr[a.cid]? = some b ∧ b.cid = a.cid ∧ b.who = a.who ∧ b.task = a.task
  rets : ∀ (k : Nat) (a : Entry) (res : Res), tr[k]? = some a → a.act = .ret res → ∀ (i : Nat) (b : Entry), tr[i]? = some b → b.cid = a.cid → i ≤ k
  runs : ∀ (t : Who) (p : Running), s.running t = some p → (∃ (b : Entry), tr[p.cid]? = some b ∧ b.cid = p.cid ∧ b.who = t ∧ b.task = p.task) ∧
    ∀ (k : Nat) (a : Entry) (res : Res), tr[k]? = some a → a.act = .ret res → a.cid ≠ p.cid
  work : ∀ (t : Who) (p : Running) (o : Nat), s.running t = some p → isWork o p.task → t = .worker o
  buf : ∀ (i : Nat) (a : Entry) (w : Bool) (o : Nat), tr[i]? = some a → a.act = .acc w (.buf o) → a.who = .worker o
  safe : ∀ (i : Nat) (j : Nat) (a : Entry) (b : Entry) (w : Bool) (w' : Bool) (l : Loc), i < j → tr[i]? = some a → tr[j]? = some b → a.act = .acc w l → b.act = .acc w' l → (w = true ∨ w' = true) → ¬ exempt l →
    Before U tr i j

variable {tr : List Entry} {s : State} {γ : Who → Gh} {pub : Nat → Prop} {lim : Nat}

/-- What a new step may be. -/
structure Fine (U : Nat → Nat → Prop) (tr : List Entry) (s : State) (γ : Who → Gh) (pub : Nat → Prop) (lim : Nat) (x : Entry) : Prop where
  span : x.cid = tr.length ∨ (∃ (b : Entry), tr[x.cid]? = some b ∧ b.cid = x.cid ∧ b.who = x.who ∧ b.task = x.task) ∧
    ∀ (k : Nat) (a : Entry) (res : Res), tr[k]? = some a → a.act = .ret res → a.cid ≠ x.cid
  run : ∀ (res : Res), x.act = .ret res → ∀ (t : Who) (p : Running), s.running t = some p → p.cid ≠ x.cid
  under : ∀ (m : Mx), cls (.under m) x → (γ x.who).holds m
  glog : ∀ (r : Nat), cls (.glog r) x → lim ≤ r
  out : ∀ (o : Nat), cls (.out o) x → (γ x.who).own o
  fmt : ∀ (w : Bool) (o : Nat), x.act = .acc w (.fmt o) → (γ x.who).own o ∨ pub o
  shape : ∀ (w : Bool) (o : Nat), x.act = .acc w (.shape o) → o < s.nout
  shp : ∀ (o : Nat), cls (.shp o) x → (∀ (t : Who), ¬ (γ t).shp o) ∧ s.worker o = 0
  evt : ∀ (e : Nat), cls (.evt e) x → (∀ (t : Who), ¬ (γ t).evs e) ∧ ∀ (o : Nat) (src : Nat), (some e, src) ∉ s.chan o
  evts : ∀ (w : Bool) (e : Nat), x.act = .acc w (.evt e) → e < s.nevt
  used : ∀ (w : Bool) (l : Loc) (r : Nat), x.act = .acc w l → fieldOf l = some r → ¬ locked x.task → r < lim ∧ (sets x.task = some r ∨ isLog x.task ∧ w = false)
  buf : ∀ (w : Bool) (o : Nat), x.act = .acc w (.buf o) → x.who = .worker o
  safe : ∀ (i : Nat) (a : Entry) (w : Bool) (w' : Bool) (l : Loc), tr[i]? = some a → a.act = .acc w l → x.act = .acc w' l → (w = true ∨ w' = true) → ¬ exempt l → Kn U tr x.who i
  retl : ∀ (r : Nat), x.act = .ret (.logger r) → ∃ (N : Nat), r < N ∧ N ≤ lim ∧ ∀ (r' : Nat), r' < N → KnC U tr x.who (.glog r')
  reto : ∀ (os : List Nat), x.act = .ret (.outputs os) → ∀ o ∈ os, pub o ∧ KnC U tr x.who (.out o)

theorem Core.notPub (h : Core U tr s γ pub lim) {x : Entry} (f : Fine U tr s γ pub lim x) {o : Nat} (hp : pub o) : ¬ cls (.out o) x :=
  fun hc => ((h.th x.who).own o (f.out o hc)).1 hp

theorem Core.add (h : Core U tr s γ pub lim) {x : Entry} (f : Fine U tr s γ pub lim x) : Core U (tr ++ [x]) s γ pub lim := by
  have hpub := fun {o} (hp : pub o) => h.notPub f hp
  have hspan : ∀ (i : Nat) (a : Entry), tr[i]? = some a → a.cid < tr.length := fun i a hi => by have := (h.span i a hi).1; have := get_lt hi; omega
  refine ⟨?th, h.inj, h.lt, ?free, h.nofac, h.root, h.loggers, h.parent, ?used, h.pubn, ?made, ?evts, ?opsv, ?outv, ?chan, ?wrk, ?wrk2, ?retl, ?reto, ?span, ?rets, ?runs,
    h.work, ?buf, ?safe⟩
  case th =>
    intro t
    have k := h.th t
    refine ⟨k.lock, fun m hm => knc_app (k.held m hm) fun hc => ?_, k.fac, k.view, fun r hr => knc_app (k.seen r hr) fun hc => ?_, k.own, ?_,
      fun o ho => ⟨(k.outs o ho).1, knc_app (k.outs o ho).2 fun hc => absurd hc (hpub (k.outs o ho).1)⟩,
      fun o ho => ⟨(k.shp o ho).1, knc_app (k.shp o ho).2 fun hc => absurd ho ((f.shp o hc).1 t)⟩,
      fun e he => ⟨(k.evs e he).1, knc_app (k.evs e he).2 fun hc => absurd he ((f.evt e hc).1 t)⟩⟩
    · have h1 := ((h.th x.who).lock m).mpr (f.under m hc)
      have h2 := (k.lock m).mpr hm
      rw [h1] at h2
      exact Option.some.inj h2
    · have := f.glog r hc
      have := k.view
      omega
    · intro o ho i a w hi ha
      rcases get_app.mp hi with hi | ⟨rfl, rfl⟩
      · exact k.mine o ho i a w hi ha
      · rcases ha with ha | ha
        · exact h.inj _ _ o (f.out o (Or.inl ha)) ho
        · rcases f.fmt w o ha with h' | h'
          · exact h.inj _ _ o h' ho
          · exact absurd h' (k.own o ho).1
  case free =>
    intro m hm i a hi hc
    rcases get_app.mp hi with hi | ⟨rfl, rfl⟩
    · obtain ⟨u, b, h1, h2, h3⟩ := h.free m hm i a hi hc
      exact ⟨u, b, get_left h1, h2, before_app h3⟩
    · have := ((h.th a.who).lock m).mpr (f.under m hc)
      rw [hm] at this
      cases this
  case used =>
    intro i a w l r hi
    rcases get_app.mp hi with hi | ⟨rfl, rfl⟩
    · exact h.used i a w l r hi
    · exact f.used w l r
  case made =>
    intro i a w o hi ha
    rcases get_app.mp hi with hi | ⟨rfl, rfl⟩
    · exact h.made i a w o hi ha
    · rcases ha with ha | ha
      · exact f.shape w o ha
      · exact (f.fmt w o ha).elim (fun h' => ((h.th _).own o h').2) (h.pubn o)
  case evts =>
    intro i a w e hi ha
    rcases get_app.mp hi with hi | ⟨rfl, rfl⟩
    · exact h.evts i a w e hi ha
    · exact f.evts w e ha
  case opsv =>
    intro r o ho
    obtain ⟨h1, w, b, h2, h3, h4⟩ := h.opsv r o ho
    exact ⟨h1, w, b, get_left h2, h3, all_app h4 (hpub h1)⟩
  case outv =>
    intro o ho
    obtain ⟨h1, w, b, h2, h3, h4⟩ := h.outv o ho
    exact ⟨h1, w, b, get_left h2, h3, all_app h4 (hpub h1)⟩
  case chan =>
    intro o e src hm
    obtain ⟨h1, h2, h3, h4, h5⟩ := h.chan o e src hm
    exact ⟨by simp; omega, h2, h3, all_app h4 (hpub h2), all_app h5 fun hc => (f.evt e hc).2 o src hm⟩
  case wrk =>
    intro o ho
    obtain ⟨h1, g, b, h2, h3, h4⟩ := h.wrk o ho
    exact ⟨h1, g, b, get_left h2, h3, all_app h4 fun hc => by have := (f.shp o hc).2; omega⟩
  case wrk2 => exact fun o ho => knc_app (h.wrk2 o ho) fun hc => by have := (f.shp o hc).2; omega
  case retl =>
    intro q a r hq ha
    rcases get_app.mp hq with hq | ⟨rfl, rfl⟩
    · obtain ⟨N, h1, h2, h3⟩ := h.retl q a r hq ha
      exact ⟨N, h1, h2, fun r' hr' => all_app (h3 r' hr') fun hc => by have := f.glog r' hc; omega⟩
    · obtain ⟨N, h1, h2, h3⟩ := f.retl r ha
      exact ⟨N, h1, h2, fun r' hr' => all_last (h3 r' hr')⟩
  case reto =>
    intro q a os hq ha o ho
    rcases get_app.mp hq with hq | ⟨rfl, rfl⟩
    · have := h.reto q a os hq ha o ho
      exact ⟨this.1, all_app this.2 (hpub this.1)⟩
    · have := f.reto os ha o ho
      exact ⟨this.1, all_last this.2⟩
  case span =>
    intro i a hi
    rcases get_app.mp hi with hi | ⟨rfl, rfl⟩
    · obtain ⟨h1, b, h2, h3⟩ := h.span i a hi
      exact ⟨h1, b, get_left h2, h3⟩
    · rcases f.span with e | ⟨⟨b, h2, h3⟩, -⟩
      · exact ⟨by omega, a, by rw [e]; exact hi, rfl, rfl, rfl⟩
      · exact ⟨Nat.le_of_lt (get_lt h2), b, get_left h2, h3⟩
  case rets =>
    intro k a res hk ha i b hi hc
    rcases get_app.mp hk with hk' | ⟨rfl, rfl⟩
    · rcases get_app.mp hi with hi | ⟨rfl, rfl⟩
      · exact h.rets k a res hk' ha i b hi hc
      · rcases f.span with e | ⟨-, h'⟩
        · have := hspan k a hk'
          omega
        · exact absurd hc.symm (h' k a res hk' ha)
    · have := get_lt hi
      simp at this
      omega
  case runs =>
    intro t p hp
    obtain ⟨⟨b, h1, h2⟩, h3⟩ := h.runs t p hp
    refine ⟨⟨b, get_left h1, h2⟩, fun k a res hk ha => ?_⟩
    rcases get_app.mp hk with hk | ⟨rfl, rfl⟩
    · exact h3 k a res hk ha
    · exact (f.run res ha t p hp).symm
  case buf =>
    intro i a w o hi ha
    rcases get_app.mp hi with hi | ⟨rfl, rfl⟩
    · exact h.buf i a w o hi ha
    · exact f.buf w o ha
  case safe =>
    intro i j a b w w' l hij hi hj ha hb hw hl
    rcases get_app.mp hj with hj | ⟨rfl, rfl⟩
    · have hi' : tr[i]? = some a := get_restrict (by have := get_lt hj; omega) hi
      exact before_app (h.safe i j a b w w' l hij hi' hj ha hb hw hl)
    · have hi' : tr[i]? = some a := get_restrict hij hi
      exact kn_last (f.safe i a w w' l hi' ha hb hw hl)

/-- A goroutine learns something. -/
theorem Core.reghost (h : Core U tr s γ pub lim) {t : Who} {Γ : Gh} (k : Know U tr s pub lim t Γ)
    (hi : ∀ t' o, t' ≠ t → Γ.own o → ¬ (γ t').own o) : Core U tr s (set γ t Γ) pub lim := by
  refine { h with th := fun t' => ?_, inj := fun t1 t2 o h1 h2 => ?_ }
  · by_cases e : t' = t
    · subst e
      simpa [set] using k
    · simpa [set, e] using h.th t'
  · by_cases e1 : t1 = t <;> by_cases e2 : t2 = t <;> simp [set, e1, e2] at h1 h2
    · rw [e1, e2]
    · exact absurd h2 (hi t2 o e2 h1)
    · exact absurd h1 (hi t1 o e1 h2)
    · exact h.inj t1 t2 o h1 h2

/-- Only one goroutine holds a lock. -/
theorem Core.alone (h : Core U tr s γ pub lim) {m : Mx} {t t' : Who} (ht : (γ t).holds m) (ht' : (γ t').holds m) : t' = t := by
  have h1 := ((h.th t).lock m).mpr ht
  have h2 := ((h.th t').lock m).mpr ht'
  rw [h1] at h2
  exact (Option.some.inj h2).symm

/-- Calls that clash are not made at the same time. -/
theorem Core.ordered (h : Core U tr s γ pub lim) (ho : Ordered U tr) {t : Who} {p : Running} (hp : s.running t = some p) {i : Nat} {a : Entry}
    (hi : tr[i]? = some a) (hc : Clash a.task p.task ∨ Clash p.task a.task) : Kn U tr t i := by
  by_cases hw : a.who = t
  · exact hw ▸ kn_self hi
  · obtain ⟨hle, b, hb1, hb2, hb3, hb4⟩ := h.span i a hi
    obtain ⟨⟨c, hc1, hc2, hc3, hc4⟩, hnr⟩ := h.runs t p hp
    have hfin : Finished U tr a.cid p.cid ∨ Finished U tr p.cid a.cid := by
      rcases hc with hc | hc
      · exact ho a.cid p.cid b c ⟨hb1, hb2⟩ ⟨hc1, hc2⟩ (by rw [hb3, hc3]; exact hw) (by rw [hb4, hc4]; exact hc)
      · exact (ho p.cid a.cid c b ⟨hc1, hc2⟩ ⟨hb1, hb2⟩ (by rw [hb3, hc3]; exact fun e => hw e.symm) (by rw [hb4, hc4]; exact hc)).symm
    rcases hfin with ⟨k, e, res, h1, h2, h3, h4⟩ | ⟨k, e, res, h1, h2, h3, h4⟩
    · have hik := h.rets k e res h1 h3 i a hi h2.symm
      obtain ⟨-, e', he1, he2, he3, he4⟩ := h.span k e h1
      rw [h2, hb1] at he1
      have hwho : a.who = e.who := by rw [← hb3, ← he3, Option.some.inj he1]
      refine ⟨p.cid, c, hc1, hc3, Or.inr ?_⟩
      rcases Nat.lt_or_eq_of_le hik with hlt | rfl
      · exact before_trans (.one (.seq hlt hi h1 hwho)) h4
      · exact h4
    · exact absurd h2 (hnr k e res h1 h3)

theorem under_field {task : Task} {l : Loc} {r : Nat} (h : fieldOf l = some r) (ht : locked task) : under task l .factory := by
  cases l <;> simp [fieldOf, under, ht] at h ⊢

theorem field_may {Γ : Gh} {w : Bool} {l : Loc} {r : Nat} (h : fieldOf l = some r) : Γ.may w l ↔ Γ.field r w := by
  cases l <;> simp [fieldOf, Gh.may] at h ⊢ <;> subst h <;> rfl

/-- An access that the rules allow is not part of a race. -/
theorem Core.mayKn (h : Core U tr s γ pub lim) (ho : Ordered U tr) {t : Who} {p : Running} (hp : s.running t = some p) (ht : (γ t).task = p.task)
    {w : Bool} {l : Loc} (hm : (γ t).may w l) {i : Nat} {a : Entry} {w' : Bool} (hi : tr[i]? = some a) (ha : a.act = .acc w' l)
    (hw : w' = true ∨ w = true) (hl : ¬ exempt l) : Kn U tr t i := by
  have k := h.th t
  have hown : a.who = t → Kn U tr t i := fun e => e ▸ kn_self hi
  by_cases hf : ∃ r, fieldOf l = some r
  · obtain ⟨r, hf⟩ := hf
    rw [field_may hf] at hm
    have hlk : locked a.task → (γ t).fac = true → Kn U tr t i := fun h1 h2 =>
      k.held .factory h2 i a hi ⟨w', l, ha, under_field hf h1⟩
    have hget : ∀ n, a.task = .getLogger n → r < (γ t).view → Kn U tr t i := fun n h1 h2 =>
      k.seen r h2 i a hi ⟨w', l, ha, hf, by rw [h1]; trivial⟩
    have hord := fun hc => h.ordered ho hp hi hc
    rw [← ht] at hord
    have hused := h.used i a w' l r hi ha hf
    unfold Gh.field at hm
    have hsetter : sets (γ t).task = some r → r < (γ t).view → Kn U tr t i := by
      intro h1 h2
      by_cases hlo : locked a.task
      · cases hat : a.task <;> simp [hat, locked] at hlo
        · exact hord (Or.inr (by rw [hat]; exact .setConfig h1))
        · exact hget _ hat h2
      · rcases (hused hlo).2 with h3 | ⟨h3, -⟩
        · exact hord (Or.inl (.setters h3 h1))
        · cases hat : a.task <;> simp [hat, isLog] at h3
          exact hord (Or.inr (by rw [hat]; exact .setLog h1))
    split at hm
    · by_cases hlo : locked a.task
      · exact hlk hlo hm.1
      · have := (hused hlo).1
        have := (k.fac hm.1).1
        omega
    · rename_i cfg ord heq
      by_cases hlo : locked a.task
      · exact hlk hlo hm
      · rcases (hused hlo).2 with h3 | ⟨h3, -⟩
        · exact hord (Or.inl (by rw [heq]; exact .setConfig h3))
        · cases hat : a.task <;> simp [hat, isLog] at h3
          exact hord (Or.inr (by rw [heq, hat]; exact .configLog))
    · rename_i heq
      exact hsetter (by rw [heq, hm.1]; rfl) hm.2
    · rename_i heq
      exact hsetter (by rw [heq, hm.1]; rfl) hm.2
    · rename_i heq
      exact hsetter (by rw [heq, hm.1]; rfl) hm.2
    · rename_i heq
      by_cases hlo : locked a.task
      · cases hat : a.task <;> simp [hat, locked] at hlo
        · exact hord (Or.inl (by rw [heq, hat]; exact .configLog))
        · exact hget _ hat hm.1
      · rcases (hused hlo).2 with h3 | ⟨h3, h4⟩
        · exact hord (Or.inl (by rw [heq]; exact .setLog h3))
        · rcases hw with hw | hw
          · rw [h4] at hw; cases hw
          · rw [hm.2] at hw; cases hw
    · exact hm.elim
  · cases l with
    | root => exact k.held .factory hm i a hi ⟨w', _, ha, rfl⟩
    | loggers => exact k.held .factory hm i a hi ⟨w', _, ha, rfl⟩
    | fmtCreators => exact k.held .manager hm i a hi ⟨w', _, ha, rfl⟩
    | outCreators => exact k.held .manager hm i a hi ⟨w', _, ha, rfl⟩
    | formats => exact k.held .manager hm i a hi ⟨w', _, ha, rfl⟩
    | outputs => exact k.held .manager hm i a hi ⟨w', _, ha, rfl⟩
    | config => exact k.held .manager hm i a hi ⟨w', _, ha, rfl⟩
    | name r => exact absurd ⟨r, rfl⟩ hf
    | level r => exact absurd ⟨r, rfl⟩ hf
    | parent r => exact absurd ⟨r, rfl⟩ hf
    | ops r => exact absurd ⟨r, rfl⟩ hf
    | skip r => exact absurd ⟨r, rfl⟩ hf
    | flag r => exact absurd ⟨r, rfl⟩ hf
    | shape o =>
      obtain ⟨rfl, hm⟩ := hm
      have hw : w' = true := by simpa using hw
      subst hw
      rcases hm with hm | hm | hm
      · exact hown (k.mine o hm i a true hi (Or.inl ha))
      · exact (k.outs o hm).2 i a hi (Or.inl ha)
      · exact (k.shp o hm).2 i a hi ha
    | fmt o =>
      rcases hm with ⟨-, hm⟩ | ⟨rfl, hm⟩
      · exact hown (k.mine o hm i a w' hi (Or.inr ha))
      · have hw : w' = true := by simpa using hw
        subst hw
        exact (k.outs o hm).2 i a hi (Or.inr ha)
    | buf o =>
      have h1 := h.work t p o hp (ht ▸ hm)
      exact hown (by rw [h1]; exact h.buf i a w' o hi ha)
    | wait o => exact absurd trivial hl
    | data o => exact absurd trivial hl
    | file o => exact k.held (.roll o) hm i a hi ⟨w', _, ha, rfl⟩
    | evt e =>
      obtain ⟨rfl, hm⟩ := hm
      have hw : w' = true := by simpa using hw
      subst hw
      exact (k.evs e hm).2 i a hi ha
    | ctx e => exact absurd trivial hl
    | info e => exact absurd trivial hl

end Log4g.Races
