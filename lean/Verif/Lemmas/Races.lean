import Verif.Spec.Races
import Verif.Lemmas.Map

/-! # Data races: what each piece of code touches -/

namespace Log4g.Races
open Spec

/-- What is known of a goroutine inside a call.  (Only for proofs.) -/
structure Gh where
  task : Task
  fac : Bool := false
  man : Bool := false
  roll : Option Nat := none
  base : Nat := 0
  n : Nat := 0
  lmap : Map Str Nat := []
  view : Nat := 0
  own : Nat → Prop := fun _ => False
  outs : Nat → Prop := fun _ => False
  shp : Nat → Prop := fun _ => False
  evs : Nat → Prop := fun _ => False

def Gh.knows (Γ : Gh) (o : Nat) : Prop := Γ.own o ∨ Γ.outs o

/-- Access to a field of a logger. -/
def Gh.field (Γ : Gh) (r : Nat) (w : Bool) : Prop :=
  match Γ.task with
  | .getLogger _ => Γ.fac = true ∧ Γ.base ≤ r
  | .setConfig _ _ => Γ.fac = true
  | .setLevel r' _ => r = r' ∧ r < Γ.view
  | .setCallerSkip r' _ => r = r' ∧ r < Γ.view
  | .setOutputs r' _ => r = r' ∧ r < Γ.view
  | .log _ _ _ => r < Γ.view ∧ w = false
  | _ => False

def isWork (o : Nat) : Task → Prop
  | .begin o' => o' = o
  | .tick o' => o' = o
  | .event o' _ => o' = o
  | .stop o' => o' = o
  | _ => False

def Gh.may (Γ : Gh) (w : Bool) : Loc → Prop
  | .root => Γ.fac = true
  | .loggers => Γ.fac = true
  | .fmtCreators => Γ.man = true
  | .outCreators => Γ.man = true
  | .formats => Γ.man = true
  | .outputs => Γ.man = true
  | .config => Γ.man = true
  | .name r => Γ.field r w
  | .level r => Γ.field r w
  | .parent r => Γ.field r w
  | .ops r => Γ.field r w
  | .skip r => Γ.field r w
  | .flag r => Γ.field r w
  | .shape o => w = false ∧ (Γ.own o ∨ Γ.outs o ∨ Γ.shp o)
  | .fmt o => (w = true ∧ Γ.own o) ∨ (w = false ∧ Γ.outs o)
  | .buf o => isWork o Γ.task
  | .wait _ => True
  | .data _ => True
  | .file o => Γ.roll = some o
  | .evt e => w = false ∧ Γ.evs e
  | .ctx _ => True
  | .info _ => True

def Gh.holds (Γ : Gh) : Mx → Prop
  | .factory => Γ.fac = true
  | .manager => Γ.man = true
  | .roll o => Γ.roll = some o

/-- What is known of a value that is read. -/
def Gh.val (Γ : Gh) : (l : Loc) → Val l → Prop
  | .root, v => ∀ r, v = some r → r < Γ.n
  | .loggers, v => v = Γ.lmap
  | .parent r, v => ∀ p, v = some p → p < r
  | _, _ => True

def Gh.learn (Γ : Gh) : (l : Loc) → Val l → Gh
  | .outputs, v => { Γ with outs := fun o => Γ.outs o ∨ o ∈ v.map (·.2) }
  | .ops _, v => { Γ with outs := fun o => Γ.outs o ∨ o ∈ v }
  | _, _ => Γ

def Gh.store (Γ : Gh) : (l : Loc) → Val l → Prop
  | .root, v => ∀ r, v = some r → r < Γ.n
  | .loggers, v => ∀ x ∈ v, x.2 < Γ.n
  | .parent r, v => ∀ p, v = some p → p < r
  | .outputs, v => ∀ o ∈ v.map (·.2), Γ.knows o
  | .ops _, v => ∀ o ∈ v, Γ.knows o
  | _, _ => True

def Gh.publish (Γ : Gh) (os : List Nat) : Gh :=
  { Γ with own := fun o => Γ.own o ∧ o ∉ os, outs := fun o => Γ.outs o ∨ o ∈ os }

def Gh.wrote (Γ : Gh) : (l : Loc) → Val l → Gh
  | .loggers, v => { Γ with lmap := v }
  | .outputs, v => Γ.publish (v.map (·.2))
  | .ops _, v => Γ.publish v
  | _, _ => Γ

/-- The ghost after a lock; what the map of loggers and the number of loggers are is not known before. -/
def Gh.lockTo (Γ : Gh) : Mx → Gh → Prop
  | .factory, Γ' => ∃ n lm, (∀ x ∈ lm, x.2 < n) ∧ Γ' = { Γ with fac := true, base := n, n := n, lmap := lm }
  | .manager, Γ' => Γ' = { Γ with man := true }
  | .roll o, Γ' => Γ' = { Γ with roll := some o }

def Gh.unlockTo (Γ : Gh) : Mx → Gh
  | .factory => { Γ with fac := false, view := Γ.n }
  | .manager => { Γ with man := false }
  | .roll _ => { Γ with roll := none }

/-- Code that keeps to the rules, from a ghost, up to a result. -/
def wp {α : Type} : Code α → (Gh → α → Prop) → Gh → Prop
  | .ret a, Q, Γ => Q Γ a
  | .read l k, Q, Γ => Γ.may false l ∧ ∀ v, Γ.val l v → wp (k v) Q (Γ.learn l v)
  | .write l v k, Q, Γ => Γ.may true l ∧ Γ.store l v ∧ wp k Q (Γ.wrote l v)
  | .lock m k, Q, Γ => (∀ o, m = .roll o → Γ.roll = none) ∧ ∀ Γ', Γ.lockTo m Γ' → wp k Q Γ'
  | .unlock m k, Q, Γ => Γ.holds m ∧ wp k Q (Γ.unlockTo m)
  | .newLogger _ k, Q, Γ => (∃ n, Γ.task = .getLogger n) ∧ Γ.fac = true ∧ Γ.base ≤ Γ.n ∧ wp (k Γ.n) Q { Γ with n := Γ.n + 1 }
  | .newOutput _ k, Q, Γ => ∀ o, wp (k o) Q { Γ with own := fun o' => Γ.own o' ∨ o' = o }
  | .newEvent _ k, Q, Γ => ∀ e, wp (k e) Q { Γ with evs := fun e' => Γ.evs e' ∨ e' = e }
  | .go o k, Q, Γ => Γ.own o ∧ wp k Q Γ
  | .send o e k, Q, Γ => (∀ e', e = some e' → Γ.outs o ∧ Γ.evs e') ∧ wp k Q Γ
  | .close _ k, Q, Γ => wp k Q Γ
  | .load _ k, Q, Γ => ∀ b, wp (k b) Q Γ
  | .store _ k, Q, Γ => wp k Q Γ
  | .add _ k, Q, Γ => wp k Q Γ
  | .done _ k, Q, Γ => wp k Q Γ
  | .waited _ k, Q, Γ => wp k Q Γ
  | .halt, _, _ => True
  | .impossible, _, _ => False

theorem wp_bind' {α β : Type} (c : Code α) (f : α → Code β) (Q : Gh → β → Prop) (Γ : Gh) :
    wp (c.bind f) Q Γ ↔ wp c (fun Γ a => wp (f a) Q Γ) Γ := by
  induction c generalizing Γ <;> simp_all [Code.bind, wp]

@[simp] theorem wp_bind {α β : Type} (c : Code α) (f : α → Code β) (Q : Gh → β → Prop) (Γ : Gh) :
    wp (c >>= f) Q Γ ↔ wp c (fun Γ a => wp (f a) Q Γ) Γ := wp_bind' c f Q Γ

@[simp] theorem wp_pure {α : Type} (a : α) (Q : Gh → α → Prop) (Γ : Gh) : wp (pure a) Q Γ ↔ Q Γ a := Iff.rfl

@[simp] theorem wp_ret {α : Type} (a : α) (Q : Gh → α → Prop) (Γ : Gh) : wp (.ret a) Q Γ ↔ Q Γ a := Iff.rfl

theorem wp_mono {α : Type} {Q Q' : Gh → α → Prop} (c : Code α) (h : ∀ Γ a, Q Γ a → Q' Γ a) : ∀ Γ, wp c Q Γ → wp c Q' Γ := by
  induction c with
  | ret a => exact fun Γ hw => h Γ a hw
  | read l k ih => exact fun Γ hw => ⟨hw.1, fun v hv => ih v _ (hw.2 v hv)⟩
  | write l v k ih => exact fun Γ hw => ⟨hw.1, hw.2.1, ih _ hw.2.2⟩
  | lock m k ih => exact fun Γ hw => ⟨hw.1, fun Γ' h' => ih _ (hw.2 Γ' h')⟩
  | unlock m k ih => exact fun Γ hw => ⟨hw.1, ih _ hw.2⟩
  | newLogger n k ih => exact fun Γ hw => ⟨hw.1, hw.2.1, hw.2.2.1, ih _ _ hw.2.2.2⟩
  | newOutput sh k ih => exact fun Γ hw o => ih _ _ (hw o)
  | newEvent v k ih => exact fun Γ hw e => ih _ _ (hw e)
  | go o k ih => exact fun Γ hw => ⟨hw.1, ih _ hw.2⟩
  | send o e k ih => exact fun Γ hw => ⟨hw.1, ih _ hw.2⟩
  | close o k ih => exact fun Γ hw => ih _ hw
  | load o k ih => exact fun Γ hw b => ih _ _ (hw b)
  | store o k ih => exact fun Γ hw => ih _ hw
  | add o k ih => exact fun Γ hw => ih _ hw
  | done o k ih => exact fun Γ hw => ih _ hw
  | waited o k ih => exact fun Γ hw => ih _ hw
  | halt => exact fun _ _ => trivial
  | impossible => exact fun _ hw => hw

/-- The ghost but for the outputs it knows. -/
def Gh.with (Γ : Gh) (own outs : Nat → Prop) : Gh := { Γ with own := own, outs := outs }

/-! ## The manager -/

theorem mem_set {α : Type} {m : Map Str α} {k : Str} {v : α} {x : Str × α} (h : x ∈ Map.set m k v) : x = (k, v) ∨ x ∈ m := by
  induction m with
  | nil => exact Or.inl (List.mem_singleton.mp h)
  | cons y m ih =>
    obtain ⟨k', v'⟩ := y
    simp only [Map.set] at h
    split at h
    · rename_i e
      rcases List.mem_cons.mp h with h | h
      · exact Or.inl (by rw [h, e])
      · exact Or.inr (List.mem_cons_of_mem _ h)
    · rcases List.mem_cons.mp h with h | h
      · exact Or.inr (h ▸ List.mem_cons_self ..)
      · exact (ih h).imp id (List.mem_cons_of_mem _)

theorem wp_fetchFormat {fmtcfg : CfgMap} {Q : Gh → Option Fmt → Prop} {Γ : Gh} (hm : Γ.man = true) (h : ∀ f, Q Γ f) :
    wp (fetchFormat fmtcfg) Q Γ := by
  simp only [wp, fetchFormat, wp_bind, rd, Gh.may, Gh.val, Gh.learn]
  refine ⟨hm, fun fcs _ => ?_⟩
  split
  · exact h none
  · simp only [wp, wp_bind, rd, Gh.may, Gh.val, Gh.learn]
    refine ⟨hm, fun fs _ => ?_⟩
    split
    · exact h _
    · split
      · exact h none
      · exact ⟨hm, fun _ _ => ⟨hm, trivial, h _⟩⟩

theorem wp_makeOutput {sh : Shape} {Q : Gh → Nat → Prop} {Γ : Gh}
    (h : ∀ o, Q { Γ with own := fun o' => Γ.own o' ∨ o' = o } o) : wp (makeOutput sh) Q Γ := by
  simp only [makeOutput, wp]
  intro o
  split
  · exact ⟨Or.inr rfl, h o⟩
  · exact h o

theorem wp_fetchOutput {opcfg : CfgMap} {f : Fmt} {Q : Gh → Option Nat → Prop} {Γ : Gh} (hm : Γ.man = true)
    (h : ∀ own outs r, (∀ o, Γ.outs o → outs o) → (∀ o, r = some o → outs o) → Q (Γ.with own outs) r) :
    wp (fetchOutput opcfg f) Q Γ := by
  simp only [wp, fetchOutput, wp_bind, rd, Gh.may, Gh.val, Gh.learn]
  refine ⟨hm, fun ocs _ => ?_⟩
  have h0 : Q Γ none := h Γ.own Γ.outs none (fun _ h => h) (by simp)
  split
  · exact h0
  · simp only [wp, wp_bind, rd, Gh.may, Gh.val, Gh.learn]
    refine ⟨hm, fun os _ => ?_⟩
    split
    · rename_i o ho
      refine h _ _ _ ?_ ?_
      · exact fun o h => Or.inl h
      · intro o' e
        cases e
        exact Or.inr (List.mem_map_of_mem (f := (·.2)) (Map.mem_of_get ho))
    · split
      · exact h _ _ none (fun _ h => Or.inl h) (by simp)
      · rw [wp_bind]
        refine wp_makeOutput fun o => ?_
        simp only [wp, wp_bind, rd, wr, wp_pure, Gh.may, Gh.val, Gh.learn, Gh.store, Gh.wrote]
        refine ⟨Or.inl ⟨trivial, Or.inr trivial⟩, trivial, hm, fun os' _ => ⟨hm, ?_, ?_⟩⟩
        · intro o' ho'
          obtain ⟨x, hx, rfl⟩ := List.mem_map.mp ho'
          rcases mem_set hx with e | hx
          · exact Or.inl (Or.inr (by rw [e]))
          · exact Or.inr (Or.inr (List.mem_map_of_mem (f := (·.2)) hx))
        · refine h _ _ _ ?_ ?_
          · exact fun o h => Or.inl (Or.inl (Or.inl h))
          · intro o' e
            cases e
            exact Or.inr (List.mem_map_of_mem (f := (·.2)) (Map.mem_of_get (Map.get_set_self ..)))

theorem wp_fetchOne {opid : Str} {Q : Gh → Option Nat → Prop} {Γ : Gh} (hm : Γ.man = true)
    (h : ∀ own outs r, (∀ o, Γ.outs o → outs o) → (∀ o, r = some o → outs o) → Q (Γ.with own outs) r) :
    wp (fetchOne opid) Q Γ := by
  have h0 : Q Γ none := h Γ.own Γ.outs none (fun _ h => h) (by simp)
  simp only [wp, fetchOne, wp_bind, rd, Gh.may, Gh.val, Gh.learn]
  refine ⟨hm, fun cfg _ => ?_⟩
  split
  · exact h0
  · simp only [wp, wp_bind, rd, Gh.may, Gh.val, Gh.learn]
    refine ⟨hm, fun cfg' _ => ?_⟩
    split
    · exact h0
    · rw [wp_bind]
      refine wp_fetchFormat hm fun f => ?_
      split
      · exact h0
      · exact wp_fetchOutput hm h

theorem wp_fetchAll {Q : Gh → Option (List Nat) → Prop} : ∀ {ns : List Str} {Γ : Gh}, Γ.man = true →
    (∀ own outs r, (∀ o, Γ.outs o → outs o) → (∀ os, r = some os → ∀ o ∈ os, outs o) → Q (Γ.with own outs) r) → wp (fetchAll ns) Q Γ := by
  intro ns
  induction ns generalizing Q with
  | nil =>
    intro Γ hm h
    exact h Γ.own Γ.outs _ (fun _ h => h) (by rintro _ ⟨rfl⟩; simp)
  | cons n ns ih =>
    intro Γ hm h
    simp only [fetchAll, wp_bind]
    refine wp_fetchOne hm fun own outs r h1 h2 => ?_
    split
    · exact h _ _ _ h1 (by simp)
    · rename_i o
      rw [wp_bind]
      refine ih (Γ := Γ.with own outs) hm fun own' outs' r' h1' h2' => ?_
      split
      · exact h _ _ _ (fun o ho => h1' o (h1 o ho)) (by simp)
      · refine h _ _ _ (fun o ho => h1' o (h1 o ho)) ?_
        rintro _ ⟨rfl⟩ o' ho'
        rcases List.mem_cons.mp ho' with rfl | ho'
        · exact h1' _ (h2 _ rfl)
        · exact h2' _ rfl _ ho'

theorem wp_fetch {name : Str} {Q : Gh → Option (List Nat × Level) → Prop} {Γ : Gh} (hm : Γ.man = false)
    (h : ∀ own outs r, (∀ o, Γ.outs o → outs o) → (∀ x, r = some x → ∀ o ∈ x.1, outs o) → Q (Γ.with own outs) r) :
    wp (fetch name) Q Γ := by
  simp only [wp, fetch, fetchLocked, wp_bind, acquire, Gh.lockTo]
  refine ⟨by simp, ?_⟩
  rintro _ rfl
  simp only [wp, rd, Gh.may, Gh.val, Gh.learn, true_and]
  intro cfg _
  have hfin : ∀ own outs r, (∀ o, Γ.outs o → outs o) → (∀ x, r = some x → ∀ o ∈ x.1, outs o) →
      Q ((Gh.with { Γ with man := true } own outs).unlockTo .manager) r := by
    intro own outs r h1 h2
    have : (Gh.with { Γ with man := true } own outs).unlockTo .manager = Γ.with own outs := by
      simp [Gh.with, Gh.unlockTo, hm]
    rw [this]
    exact h own outs r h1 h2
  split
  · exact ⟨rfl, hfin Γ.own Γ.outs none (fun _ h => h) (by simp)⟩
  · rw [wp_bind]
    refine wp_fetchAll (Γ := { Γ with man := true }) rfl fun own outs r h1 h2 => ?_
    split
    · exact ⟨rfl, hfin _ _ _ h1 (by simp)⟩
    · refine ⟨rfl, hfin _ _ _ h1 ?_⟩
      rintro _ ⟨rfl⟩
      exact h2 _ rfl

/-! ## Loggers -/

theorem wp_callerFlag {o : Nat} {Q : Gh → Int → Prop} {Γ : Gh} (hk : Γ.outs o) (h : ∀ i, Q Γ i) : wp (callerFlag o) Q Γ := by
  simp only [wp, callerFlag, wp_bind, rd, Gh.may, Gh.val, Gh.learn, true_and]
  refine ⟨by simp [hk], fun sh _ => ?_⟩
  split
  · exact h _
  · simp only [wp, wp_bind, rd, Gh.may, Gh.val, Gh.learn, true_and]
    refine ⟨by simp [hk], fun f _ => ?_⟩
    split
    · exact h _
    · exact h _

theorem wp_raiseFlag {r : Nat} {Q : Gh → Unit → Prop} {Γ : Gh} (hr : Γ.field r true) (hr' : Γ.field r false) (h : Q Γ ()) :
    ∀ {os : List Nat}, (∀ o ∈ os, Γ.outs o) → wp (raiseFlag r os) Q Γ
  | [], _ => h
  | o :: os, hk => by
    have ih : wp (raiseFlag r os) Q Γ := wp_raiseFlag hr hr' h fun o ho => hk o (List.mem_cons_of_mem _ ho)
    simp only [wp, raiseFlag, wp_bind, rd, Gh.may, Gh.val, Gh.learn, true_and, hr']
    intro fl _
    refine wp_callerFlag (hk o (List.mem_cons_self ..)) fun c => ?_
    split
    · rw [wp_bind]
      refine wp_callerFlag (hk o (List.mem_cons_self ..)) fun c => ?_
      simp only [wp, wp_bind, wr, Gh.may, Gh.store, Gh.wrote, hr, true_and]
      exact ih
    · exact ih

theorem wp_setOutputs {r : Nat} {os : List Nat} {Q : Gh → Unit → Prop} {Γ : Gh} (hr : Γ.field r true) (hr' : Γ.field r false)
    (hk : ∀ o ∈ os, Γ.knows o) (h : Q (Γ.publish os) ()) : wp (setOutputs r os) Q Γ :=
  ⟨hr, hk, wp_raiseFlag (Γ := Γ.publish os) hr hr' h fun o ho => Or.inr ho⟩

/-- The ghost of `GetLogger` between lock and unlock. -/
def GOk (Γ : Gh) : Prop := (∃ n, Γ.task = .getLogger n) ∧ Γ.fac = true ∧ Γ.man = false ∧ Γ.roll = none ∧ Γ.base ≤ Γ.n ∧ ∀ x ∈ Γ.lmap, x.2 < Γ.n

theorem GOk.field {Γ : Gh} (h : GOk Γ) {r : Nat} (w : Bool) (hr : Γ.base ≤ r) : Γ.field r w := by
  obtain ⟨⟨n, ht⟩, hf, -⟩ := h
  simp [Gh.field, ht, hf, hr]

/-- What changes of the ghost in `GetLogger`: loggers are made, and entered into the map under other names than `avoid`. -/
def GTo (avoid : Str) (Γ Γ' : Gh) : Prop :=
  Γ'.task = Γ.task ∧ Γ'.fac = Γ.fac ∧ Γ'.man = Γ.man ∧ Γ'.roll = Γ.roll ∧ Γ'.base = Γ.base ∧ Γ.n ≤ Γ'.n ∧ (∀ x ∈ Γ'.lmap, x.2 < Γ'.n) ∧
    Map.get Γ'.lmap avoid = Map.get Γ.lmap avoid

theorem GTo.ok {avoid : Str} {Γ Γ' : Gh} (h : GTo avoid Γ Γ') (hg : GOk Γ) : GOk Γ' := by
  obtain ⟨h1, h2, h3, h4, h5, h6, h7, -⟩ := h
  obtain ⟨g1, g2, g3, g4, g5, -⟩ := hg
  exact ⟨h1 ▸ g1, h2 ▸ g2, h3 ▸ g3, h4 ▸ g4, by rw [h5]; omega, h7⟩

theorem GTo.refl {avoid : Str} {Γ : Gh} (hg : GOk Γ) : GTo avoid Γ Γ := ⟨rfl, rfl, rfl, rfl, rfl, Nat.le_refl _, hg.2.2.2.2.2, rfl⟩

theorem GTo.trans {avoid : Str} {Γ Γ' Γ'' : Gh} (h : GTo avoid Γ Γ') (h' : GTo avoid Γ' Γ'') : GTo avoid Γ Γ'' := by
  obtain ⟨h1, h2, h3, h4, h5, h6, h7, h8⟩ := h
  obtain ⟨g1, g2, g3, g4, g5, g6, g7, g8⟩ := h'
  exact ⟨g1.trans h1, g2.trans h2, g3.trans h3, g4.trans h4, g5.trans h5, Nat.le_trans h6 g6, g7, g8.trans h8⟩

theorem wp_makeLogger {name : Str} {Q : Gh → Nat → Prop} {Γ : Gh} (hg : GOk Γ) (h : Q { Γ with n := Γ.n + 1 } Γ.n) :
    wp (makeLogger name) Q Γ := by
  have hg' : GOk { Γ with n := Γ.n + 1 } :=
    ⟨hg.1, hg.2.1, hg.2.2.1, hg.2.2.2.1, Nat.le_succ_of_le hg.2.2.2.2.1, fun x hx => Nat.lt_succ_of_lt (hg.2.2.2.2.2 x hx)⟩
  have hb := hg.2.2.2.2.1
  exact ⟨hg.1, hg.2.1, hb, hg'.field true hb, trivial, hg'.field true hb, trivial, h⟩

theorem wp_createLogger {name avoid : Str} {parent : Nat} {Q : Gh → Nat → Prop} {Γ : Gh} (hg : GOk Γ) (hp : parent < Γ.n) (ha : name ≠ avoid)
    (h : ∀ Γ' r, GTo avoid Γ Γ' → r < Γ'.n → Q Γ' r) : wp (createLogger name parent) Q Γ := by
  have hl := hg.2.2.2.2.2
  simp only [wp, createLogger, wp_bind, rd, Gh.may, Gh.val, Gh.learn]
  refine ⟨hg.2.1, ?_⟩
  rintro _ rfl
  split
  · rename_i r hr
    exact h _ _ (GTo.refl hg) (hl _ (Map.mem_of_get hr))
  · rw [wp_bind]
    refine wp_makeLogger hg ?_
    have hg' : GOk { Γ with n := Γ.n + 1 } := ⟨hg.1, hg.2.1, hg.2.2.1, hg.2.2.2.1, by have := hg.2.2.2.2.1; simp; omega, fun x hx => Nat.lt_succ_of_lt (hl x hx)⟩
    simp only [wp, wp_bind, rd, wr, Gh.may, Gh.val, Gh.learn, Gh.store, Gh.wrote, wp_pure]
    refine ⟨hg'.field true hg.2.2.2.2.1, by rintro _ ⟨rfl⟩; exact hp, hg.2.1, ?_⟩
    rintro _ rfl
    have hv : ∀ x ∈ Map.set Γ.lmap name Γ.n, x.2 < Γ.n + 1 := by
      intro x hx
      rcases mem_set hx with e | hx
      · rw [e]; exact Nat.lt_succ_self _
      · exact Nat.lt_succ_of_lt (hl x hx)
    refine ⟨hg.2.1, hv, h _ _ ⟨rfl, rfl, rfl, rfl, rfl, Nat.le_succ _, hv, ?_⟩ (Nat.lt_succ_self _)⟩
    exact Map.get_set_ne _ _ ha

/-- `createLogger` of a name that is not in the map: a new logger. -/
theorem wp_createLogger_new {name : Str} {parent : Nat} {Q : Gh → Nat → Prop} {Γ : Gh} (hg : GOk Γ) (hp : parent < Γ.n) (ha : Map.get Γ.lmap name = none)
    (h : ∀ Γ' r, GOk Γ' → Γ'.base ≤ r → r < Γ'.n → Q Γ' r) : wp (createLogger name parent) Q Γ := by
  have hl := hg.2.2.2.2.2
  simp only [wp, createLogger, wp_bind, rd, Gh.may, Gh.val, Gh.learn]
  refine ⟨hg.2.1, ?_⟩
  rintro _ rfl
  simp only [ha, wp_bind]
  refine wp_makeLogger hg ?_
  have hg' : GOk { Γ with n := Γ.n + 1 } := ⟨hg.1, hg.2.1, hg.2.2.1, hg.2.2.2.1, by have := hg.2.2.2.2.1; simp; omega, fun x hx => Nat.lt_succ_of_lt (hl x hx)⟩
  simp only [wp, wp_bind, rd, wr, Gh.may, Gh.val, Gh.learn, Gh.store, Gh.wrote, wp_pure]
  refine ⟨hg'.field true hg.2.2.2.2.1, by rintro _ ⟨rfl⟩; exact hp, hg.2.1, ?_⟩
  rintro _ rfl
  have hv : ∀ x ∈ Map.set Γ.lmap name Γ.n, x.2 < Γ.n + 1 := by
    intro x hx
    rcases mem_set hx with e | hx
    · rw [e]; exact Nat.lt_succ_self _
    · exact Nat.lt_succ_of_lt (hl x hx)
  exact ⟨hg.2.1, hv, h _ _ ⟨hg'.1, hg'.2.1, hg'.2.2.1, hg'.2.2.2.1, hg'.2.2.2.2.1, hv⟩ hg.2.2.2.2.1 (Nat.lt_succ_self _)⟩

theorem GOk.with {Γ : Gh} (h : GOk Γ) (own outs : Nat → Prop) : GOk (Γ.with own outs) := h

theorem GTo.with {avoid : Str} {Γ Γ' : Gh} (h : GTo avoid Γ Γ') (own outs : Nat → Prop) : GTo avoid Γ (Γ'.with own outs) := h

theorem wp_getRoot {avoid : Str} {Q : Gh → Nat → Prop} {Γ : Gh} (hg : GOk Γ) (ha : rootLoggerName ≠ avoid)
    (h : ∀ Γ' r, GTo avoid Γ Γ' → r < Γ'.n → Q Γ' r) : wp getRoot Q Γ := by
  have hl := hg.2.2.2.2.2
  simp only [wp, getRoot, wp_bind, rd, Gh.may, Gh.val, Gh.learn]
  refine ⟨hg.2.1, fun v hv => ?_⟩
  split
  · rename_i r
    exact h _ _ (GTo.refl hg) (hv r rfl)
  · rw [wp_bind]
    refine wp_makeLogger hg ?_
    have hg' : GOk { Γ with n := Γ.n + 1 } := ⟨hg.1, hg.2.1, hg.2.2.1, hg.2.2.2.1, by have := hg.2.2.2.2.1; simp; omega, fun x hx => Nat.lt_succ_of_lt (hl x hx)⟩
    simp only [wp, wp_bind, wr, Gh.may, Gh.store, Gh.wrote]
    refine ⟨hg.2.1, by rintro _ ⟨rfl⟩; exact Nat.lt_succ_self _, ?_⟩
    have hend : ∀ own outs, wp (do
        let ls ← rd .loggers
        wr .loggers (Map.set ls rootLoggerName Γ.n)
        pure Γ.n) Q (Gh.with { Γ with n := Γ.n + 1 } own outs) := by
      intro own outs
      simp only [wp, wp_bind, rd, wr, wp_pure, Gh.may, Gh.val, Gh.learn, Gh.store, Gh.wrote, Gh.with]
      refine ⟨hg.2.1, ?_⟩
      rintro _ rfl
      have hv : ∀ x ∈ Map.set Γ.lmap rootLoggerName Γ.n, x.2 < Γ.n + 1 := by
        intro x hx
        rcases mem_set hx with e | hx
        · rw [e]; exact Nat.lt_succ_self _
        · exact Nat.lt_succ_of_lt (hl x hx)
      refine ⟨hg.2.1, hv, h _ _ ⟨rfl, rfl, rfl, rfl, rfl, Nat.le_succ _, hv, ?_⟩ (Nat.lt_succ_self _)⟩
      exact Map.get_set_ne _ _ ha
    refine wp_fetch (Γ := { Γ with n := Γ.n + 1 }) hg.2.2.1 fun own outs r h1 h2 => ?_
    have hgw := hg'.with own outs
    split
    · simp only [wp, wp_bind, wr, Gh.may, Gh.store, Gh.wrote]
      refine ⟨hgw.field true hg.2.2.2.2.1, trivial, ?_⟩
      refine wp_makeOutput fun o => ?_
      refine wp_setOutputs (hgw.field true hg.2.2.2.2.1) (hgw.field false hg.2.2.2.2.1) ?_ ?_
      · intro o' ho'
        rw [List.mem_singleton.mp ho']
        exact Or.inl (Or.inr rfl)
      · have := hend
        simp only [wp_bind] at this
        exact this _ _
    · rename_i ops lvl
      simp only [wp, wp_bind, wr, Gh.may, Gh.store, Gh.wrote]
      refine ⟨hgw.field true hg.2.2.2.2.1, trivial, ?_⟩
      refine wp_setOutputs (hgw.field true hg.2.2.2.2.1) (hgw.field false hg.2.2.2.2.1) ?_ ?_
      · exact fun o' ho' => Or.inr (h2 _ rfl o' ho')
      · have := hend
        simp only [wp_bind] at this
        exact this _ _

theorem wp_parentLoop {avoid : Str} {Q : Gh → Nat → Prop} : ∀ {rest before : Str} {parent : Nat} {Γ : Gh}, GOk Γ → parent < Γ.n → avoid = before ++ rest →
    (∀ Γ' r, GTo avoid Γ Γ' → r < Γ'.n → Q Γ' r) → wp (parentLoop parent before rest) Q Γ := by
  intro rest
  induction rest with
  | nil =>
    intro before parent Γ hg hp _ h
    exact h _ _ (GTo.refl hg) hp
  | cons c rest ih =>
    intro before parent Γ hg hp he h
    simp only [parentLoop]
    split
    · rw [wp_bind]
      refine wp_createLogger (avoid := avoid) hg hp ?_ fun Γ' r h1 h2 => ?_
      · intro e
        have := congrArg List.length (e.trans he)
        simp at this
      · exact ih (h1.ok hg) h2 (by rw [he]; simp) fun Γ'' r' h1' h2' => h _ _ (h1.trans h1') h2'
    · exact ih hg hp (by rw [he]; simp) h

theorem wp_getNamed {name : Str} {Q : Gh → Nat → Prop} {Γ : Gh} (hg : GOk Γ) (hn : rootLoggerName ≠ name)
    (h : ∀ Γ' r, GOk Γ' → r < Γ'.n → Q Γ' r) : wp (getNamed name) Q Γ := by
  have hl := hg.2.2.2.2.2
  simp only [wp, getNamed, wp_bind, rd, Gh.may, Gh.val, Gh.learn]
  refine ⟨hg.2.1, ?_⟩
  rintro _ rfl
  split
  · rename_i r hr
    exact h _ _ hg (hl _ (Map.mem_of_get hr))
  · rename_i hr
    rw [wp_bind]
    refine wp_getRoot (avoid := name) hg hn fun Γ1 r1 t1 l1 => ?_
    rw [wp_bind]
    refine wp_parentLoop (avoid := name) (t1.ok hg) l1 rfl fun Γ2 r2 t2 l2 => ?_
    rw [wp_bind]
    have ht := t1.trans t2
    refine wp_createLogger_new (ht.ok hg) l2 (by rw [ht.2.2.2.2.2.2.2, hr]) fun Γ3 r3 g3 b3 l3 => ?_
    rw [wp_bind]
    refine wp_fetch g3.2.2.1 fun own outs res h1 h2 => ?_
    split
    · exact h _ _ (g3.with own outs) l3
    · simp only [wp, wp_bind, wr, Gh.may, Gh.store, Gh.wrote]
      refine ⟨(g3.with own outs).field true b3, trivial, ?_⟩
      refine wp_setOutputs ((g3.with own outs).field true b3) ((g3.with own outs).field false b3) (fun o ho => Or.inr (h2 _ rfl o ho)) ?_
      exact h _ _ (g3.with _ _) l3

theorem wp_getLogger {name : Str} {Q : Gh → Nat → Prop} {Γ : Gh} (ht : ∃ n, Γ.task = .getLogger n) (hm : Γ.man = false) (hr : Γ.roll = none)
    (h : ∀ Γ' r, Γ'.fac = false → Γ'.man = false → Γ'.roll = none → r < Γ'.view → Q Γ' r) : wp (getLogger name) Q Γ := by
  simp only [wp, getLogger, wp_bind, acquire, Gh.lockTo]
  refine ⟨by simp, ?_⟩
  rintro _ ⟨n, lm, hlm, rfl⟩
  have hg : GOk { Γ with fac := true, base := n, n := n, lmap := lm } := ⟨ht, rfl, hm, hr, Nat.le_refl _, hlm⟩
  have hend : ∀ Γ' r, GOk Γ' → r < Γ'.n → wp (do release .factory; pure r) Q Γ' := by
    intro Γ' r g l
    simp only [wp, wp_bind, release, wp_pure]
    exact ⟨g.2.1, h _ _ rfl g.2.2.1 g.2.2.2.1 l⟩
  split
  · rw [wp_bind]
    refine wp_getRoot (avoid := rootLoggerName ++ rootLoggerName) hg (by decide) fun Γ' r t l => ?_
    exact (hend Γ' r (t.ok hg) l)
  · rename_i hne
    rw [wp_bind]
    refine wp_getNamed hg (fun e => hne (Or.inr e.symm)) fun Γ' r g l => ?_
    exact (hend Γ' r g l)

theorem wp_notifyLoop {Q : Gh → Unit → Prop} : ∀ {rs : List Nat} {Γ : Gh}, (∃ c o, Γ.task = .setConfig c o) → Γ.fac = true → Γ.man = false →
    (∀ own outs, Q (Γ.with own outs) ()) → wp (notifyLoop rs) Q Γ := by
  intro rs
  induction rs with
  | nil => intro Γ _ _ _ h; exact h Γ.own Γ.outs
  | cons r rs ih =>
    intro Γ ht hf hm h
    have hfield : ∀ own outs w, (Γ.with own outs).field r w := by
      intro own outs w
      obtain ⟨c, o, ht⟩ := ht
      simp [Gh.field, Gh.with, ht, hf]
    simp only [wp, notifyLoop, wp_bind, rd, Gh.may, Gh.val, Gh.learn]
    refine ⟨hfield Γ.own Γ.outs false, fun nm _ => ?_⟩
    refine wp_fetch hm fun own outs res h1 h2 => ?_
    split
    · exact ih ht hf hm fun own' outs' => h _ _
    · simp only [wp, wp_bind, wr, Gh.may, Gh.store, Gh.wrote]
      refine ⟨hfield _ _ true, trivial, ?_⟩
      refine wp_setOutputs (hfield _ _ true) (hfield _ _ false) (fun o ho => Or.inr (h2 _ rfl o ho)) ?_
      exact ih ht hf hm fun own' outs' => h _ _

theorem wp_setConfig {cfg : Config} {ord : Map Str Nat → List Nat} {Q : Gh → Unit → Prop} {Γ : Gh} (ht : ∃ c o, Γ.task = .setConfig c o) (hf : Γ.fac = false)
    (hm : Γ.man = false) (hr : Γ.roll = none) (h : ∀ Γ', Γ'.fac = false → Γ'.man = false → Γ'.roll = none → Q Γ' ()) : wp (setConfig cfg ord) Q Γ := by
  simp only [setConfig]
  split
  · exact h Γ hf hm hr
  · simp only [wp, wp_bind, acquire, release, wr, rd, Gh.lockTo]
    refine ⟨by simp, ?_⟩
    rintro _ rfl
    refine ⟨rfl, trivial, rfl, by simp, ?_⟩
    rintro _ ⟨n, lm, hlm, rfl⟩
    refine ⟨rfl, fun ls _ => ?_⟩
    refine wp_notifyLoop ht rfl rfl fun own outs => ⟨rfl, ?_⟩
    exact h _ rfl rfl hr

/-! ## Log calls and outputs -/

theorem wp_callerInfo {e : Nat} {nf found : Bool} {Q : Gh → Unit → Prop} {Γ : Gh} (h : Q Γ ()) : wp (callerInfo e nf found) Q Γ := by
  have h2 : wp (if nf = true then do
      let filled ← rd (.info e)
      if filled = false ∧ found = true then wr (.info e) true
      else pure () else pure ()) Q Γ := by
    split
    · simp only [wp, wp_bind, rd, Gh.may, Gh.val, Gh.learn, true_and]
      intro v _
      split
      · exact ⟨trivial, trivial, h⟩
      · exact h
    · exact h
  simp only [wp, callerInfo, wp_bind, rd, Gh.may, Gh.val, Gh.learn, true_and]
  intro v _
  split
  · simp only [wp, wp_bind, wr, Gh.may, Gh.store, Gh.wrote, true_and]
    exact h2
  · exact h2

theorem wp_runVerbs {e : Nat} {found : Bool} {Q : Gh → Unit → Prop} {Γ : Gh} (h : Q Γ ()) : ∀ {vs : List Bool}, wp (runVerbs e found vs) Q Γ
  | [] => h
  | v :: vs => by
    simp only [runVerbs, wp_bind]
    exact wp_callerInfo (wp_runVerbs h)

theorem wp_format {f : Option Fmt} {e : Nat} {found : Bool} {Q : Gh → Unit → Prop} {Γ : Gh} (h : Q Γ ()) : wp (format f e found) Q Γ := by
  unfold format
  split
  · exact wp_runVerbs h
  · exact h

theorem wp_put {o : Nat} {sk : Sink} {Q : Gh → Unit → Prop} {Γ : Gh} (hr : Γ.roll = none) (h : Q Γ ()) : wp (put o sk) Q Γ := by
  cases sk
  · exact h
  · simp only [wp, put, wp_bind, rd, wr, Gh.may, Gh.val, Gh.learn, Gh.store, Gh.wrote, true_and]
    exact fun _ _ => h
  · simp only [wp, put, wp_bind, rd, wr, acquire, release, Gh.lockTo]
    refine ⟨fun _ _ => hr, ?_⟩
    rintro _ rfl
    refine ⟨rfl, fun _ _ => ⟨rfl, trivial, rfl, ?_⟩⟩
    have : ({ Γ with roll := some o } : Gh).unlockTo (.roll o) = Γ := by cases Γ; simp_all [Gh.unlockTo]
    simpa [Gh.learn, Gh.wrote, this] using h

theorem wp_sendTo {o e : Nat} {Q : Gh → Unit → Prop} {Γ : Gh} (ho : Γ.outs o) (he : Γ.evs e) (hr : Γ.roll = none) (h : Q Γ ()) : wp (sendTo o e) Q Γ := by
  simp only [wp, sendTo, wp_bind, rd, Gh.may, Gh.val, Gh.learn, true_and]
  refine ⟨Or.inr (Or.inl ho), fun sh _ => ?_⟩
  split
  · simp only [wp]
    intro b
    split
    · exact h
    · exact ⟨by rintro _ ⟨rfl⟩; exact ⟨ho, he⟩, h⟩
  · exact h
  · simp only [wp, wp_bind, rd, Gh.may, Gh.val, Gh.learn, true_and]
    refine ⟨he, fun v _ => ?_⟩
    split
    · exact h
    · simp only [wp, wp_bind, rd, Gh.may, Gh.val, Gh.learn, true_and]
      exact ⟨Or.inr ho, fun f _ => wp_format (wp_put hr h)⟩
  · simp only [wp, wp_bind, rd, Gh.may, Gh.val, Gh.learn, true_and]
    refine ⟨he, fun v _ => ?_⟩
    split
    · exact h
    · simp only [wp, wp_bind, rd, Gh.may, Gh.val, Gh.learn, true_and]
      exact ⟨Or.inr ho, fun f _ => wp_format h⟩

theorem wp_sendAll {e : Nat} {Q : Gh → Unit → Prop} {Γ : Gh} (he : Γ.evs e) (hr : Γ.roll = none) (h : Q Γ ()) :
    ∀ {os : List Nat}, (∀ o ∈ os, Γ.outs o) → wp (sendAll e os) Q Γ
  | [], _ => h
  | o :: os, ho => by
    simp only [sendAll, wp_bind]
    exact wp_sendTo (ho o (List.mem_cons_self ..)) he hr (wp_sendAll he hr h fun o' h' => ho o' (List.mem_cons_of_mem _ h'))

/-- The ghost of a log call. -/
def LOk (Γ : Gh) : Prop := (∃ r l f, Γ.task = .log r l f) ∧ Γ.fac = false ∧ Γ.man = false ∧ Γ.roll = none

theorem LOk.field {Γ : Gh} (h : LOk Γ) {r : Nat} (hr : r < Γ.view) : Γ.field r false := by
  obtain ⟨⟨_, _, _, ht⟩, -⟩ := h
  simp [Gh.field, ht, hr]

theorem wp_levelOf {Q : Gh → Level → Prop} {Γ : Gh} (hl : LOk Γ) (h : ∀ l, Q Γ l) : ∀ {k r : Nat}, r < k → r < Γ.view → wp (levelOf k r) Q Γ
  | 0, _, hk, _ => by omega
  | k + 1, r, hk, hr => by
    simp only [wp, levelOf, wp_bind, rd, Gh.may, Gh.val, Gh.learn, true_and]
    refine ⟨hl.field hr, fun lv _ => ?_⟩
    split
    · exact ⟨hl.field hr, fun _ _ => h _⟩
    · simp only [wp, wp_bind, rd, Gh.may, Gh.val, Gh.learn, true_and]
      refine ⟨hl.field hr, fun p hp => ?_⟩
      split
      · rename_i p
        have := hp p rfl
        exact wp_levelOf hl h (by omega) (by omega)
      · exact h _

theorem wp_dispatch {r : Nat} {lvl : Level} {found : Bool} {Q : Gh → Unit → Prop} {Γ : Gh} (hl : LOk Γ) (hr : r < Γ.view)
    (h : ∀ Γ', LOk Γ' → Γ'.view = Γ.view → Q Γ' ()) : wp (dispatch r lvl found) Q Γ := by
  simp only [dispatch, wp]
  intro e
  simp only [wp, wp_bind, wr, rd, Gh.may, Gh.store, Gh.wrote, Gh.val, Gh.learn, true_and]
  have hl' : LOk { Γ with evs := fun e' => Γ.evs e' ∨ e' = e } := hl
  refine ⟨hl'.field hr, fun fl _ => ?_⟩
  have hend : wp (do let ops ← rd (.ops r); sendAll e ops) Q { Γ with evs := fun e' => Γ.evs e' ∨ e' = e } := by
    simp only [wp, wp_bind, rd, Gh.may, Gh.val, Gh.learn, true_and]
    refine ⟨hl'.field hr, fun ops _ => ?_⟩
    exact wp_sendAll (Γ := { Γ with evs := fun e' => Γ.evs e' ∨ e' = e, outs := fun o => Γ.outs o ∨ o ∈ ops }) (Or.inr rfl) hl.2.2.2 (h _ hl rfl) fun o ho => Or.inr ho
  split
  · simp only [wp_bind]
    exact wp_callerInfo hend
  · simp only [wp, wp_bind, rd, Gh.may, Gh.val, Gh.learn, true_and]
    refine ⟨hl'.field hr, fun fl _ => ?_⟩
    split
    · simp only [wp_bind]
      exact wp_callerInfo hend
    · exact hend

theorem wp_writeLog {lvl : Level} {found : Bool} {Q : Gh → Unit → Prop} {Γ : Gh} (hl : LOk Γ)
    (h : ∀ Γ', LOk Γ' → Γ'.view = Γ.view → Q Γ' ()) : ∀ {k r : Nat} {Γ' : Gh}, LOk Γ' → Γ'.view = Γ.view → r < k → r < Γ'.view → wp (writeLog lvl found k r) Q Γ'
  | 0, _, _, _, _, hk, _ => by omega
  | k + 1, r, Γ', hl', hv, hk, hr => by
    simp only [writeLog, wp_bind]
    refine wp_levelOf hl' (fun lv => ?_) (Nat.lt_succ_self _) hr
    split
    · exact h _ hl' hv
    · simp only [wp, wp_bind, rd, Gh.may, Gh.val, Gh.learn, true_and]
      refine ⟨hl'.field hr, fun ops _ => ?_⟩
      have hl'' : LOk { Γ' with outs := fun o => Γ'.outs o ∨ o ∈ ops } := hl'
      have hd : wp (dispatch r lvl found) Q { Γ' with outs := fun o => Γ'.outs o ∨ o ∈ ops } :=
        wp_dispatch hl'' hr fun Γ'' l v => h _ l (v.trans hv)
      split
      · simp only [wp, wp_bind, rd, Gh.may, Gh.val, Gh.learn, true_and]
        refine ⟨hl''.field hr, fun p hp => ?_⟩
        split
        · rename_i p
          have := hp p rfl
          have hr' : p < Γ'.view := by omega
          exact wp_writeLog hl h (Γ' := { Γ' with outs := fun o => Γ'.outs o ∨ o ∈ ops }) hl'' hv (by omega) hr'
        · exact hd
      · exact hd

theorem wp_closeOutput {o : Nat} {Q : Gh → Unit → Prop} {Γ : Gh} (ho : Γ.outs o) (h : Q Γ ()) : wp (closeOutput o) Q Γ := by
  simp only [wp, closeOutput, wp_bind, rd, Gh.may, Gh.val, Gh.learn, true_and]
  refine ⟨Or.inr (Or.inl ho), fun sh _ => ?_⟩
  split
  · simp only [wp]
    intro b
    split
    · exact h
    · simp only [wp, Gh.may, Gh.val, Gh.learn, true_and]
      exact ⟨by simp, fun _ _ => h⟩
  · exact h

theorem wp_closeAll {Q : Gh → Unit → Prop} {Γ : Gh} (h : Q Γ ()) : ∀ {os : List Nat}, (∀ o ∈ os, Γ.outs o) → wp (closeAll os) Q Γ
  | [], _ => h
  | o :: os, ho => by
    simp only [closeAll, wp_bind]
    exact wp_closeOutput (ho o (List.mem_cons_self ..)) (wp_closeAll h fun o' h' => ho o' (List.mem_cons_of_mem _ h'))

theorem wp_flush {o : Nat} {Q : Gh → Unit → Prop} {Γ : Gh} (hs : Γ.own o ∨ Γ.outs o ∨ Γ.shp o) (hw : isWork o Γ.task) (hr : Γ.roll = none) (h : Q Γ ()) :
    wp (flush o) Q Γ := by
  simp only [wp, flush, wp_bind, rd, Gh.may, Gh.val, Gh.learn, true_and]
  refine ⟨hw, fun _ _ => ⟨hs, fun sh _ => wp_put hr ⟨hw, trivial, h⟩⟩⟩

theorem wp_handle {o e : Nat} {Q : Gh → Unit → Prop} {Γ : Gh} (ho : Γ.outs o) (he : Γ.evs e) (hw : isWork o Γ.task) (hr : Γ.roll = none) (h : Q Γ ()) :
    wp (handle o e) Q Γ := by
  simp only [wp, handle, wp_bind, rd, Gh.may, Gh.val, Gh.learn, true_and]
  refine ⟨he, fun v _ => ?_⟩
  refine ⟨Or.inr (Or.inl ho), fun sh _ => ?_⟩
  split
  · exact h
  · simp only [wp, wp_bind, rd, Gh.may, Gh.val, Gh.learn, true_and]
    refine ⟨Or.inr ho, fun f _ => ?_⟩
    split
    · trivial
    · simp only [wp_bind]
      refine wp_format ?_
      simp only [wp, rd, wr, Gh.may, Gh.val, Gh.learn, Gh.store, Gh.wrote, true_and]
      refine ⟨hw, fun k _ => ⟨hw, ?_⟩⟩
      split
      · split
        · exact wp_flush (Or.inr (Or.inl ho)) hw hr h
        · exact h
      · exact h

/-! ## Calls -/

/-- What is known when a call begins. -/
structure Starts (c : Task) (Γ : Gh) : Prop where
  task : Γ.task = c
  fac : Γ.fac = false
  man : Γ.man = false
  roll : Γ.roll = none
  own : ∀ o, ¬ Γ.own o
  view : ∀ r, target c = some r → r < Γ.view
  outs : ∀ o ∈ given c, Γ.outs o
  shp : ∀ o, (c = .tick o ∨ c = .stop o) → Γ.shp o
  event : ∀ o e, c = .event o e → Γ.outs o ∧ Γ.evs e
  noSet : ∀ o f, c ≠ .setFormatter o f
  ord : ∀ ord, c = .close ord → ∀ m, (ord m).Perm (m.map (·.2))

/-- What is known when it returns. -/
def Post (Γ : Gh) (res : Res) : Prop :=
  Γ.fac = false ∧ Γ.man = false ∧ Γ.roll = none ∧ (∀ r, res = .logger r → r < Γ.view) ∧ ∀ os, res = .outputs os → ∀ o ∈ os, Γ.knows o

theorem post_unit {Γ : Gh} (hf : Γ.fac = false) (hm : Γ.man = false) (hr : Γ.roll = none) : Post Γ .unit := ⟨hf, hm, hr, by simp, by simp⟩

theorem wp_task {c : Task} {Γ : Gh} (h : Starts c Γ) : wp c.code Post Γ := by
  obtain ⟨ht, hf, hm, hr, hown, hview, houts, hshp, hev, hns, hord⟩ := h
  have hp : Post Γ .unit := post_unit hf hm hr
  cases c with
  | registerFormatter t f =>
    simp only [wp, Task.code, noResult, wp_bind, acquire, release, rd, wr, wp_pure, Gh.lockTo]
    refine ⟨by simp, ?_⟩
    rintro _ rfl
    exact ⟨rfl, fun _ _ => ⟨rfl, trivial, rfl, post_unit hf rfl hr⟩⟩
  | registerOutput t f =>
    simp only [wp, Task.code, noResult, wp_bind, acquire, release, rd, wr, wp_pure, Gh.lockTo]
    refine ⟨by simp, ?_⟩
    rintro _ rfl
    exact ⟨rfl, fun _ _ => ⟨rfl, trivial, rfl, post_unit hf rfl hr⟩⟩
  | setConfig cfg ord =>
    simp only [Task.code, noResult, wp_bind]
    exact wp_setConfig ⟨_, _, ht⟩ hf hm hr fun Γ' a b c => post_unit a b c
  | getLogger name =>
    simp only [Task.code, wp_bind]
    exact wp_getLogger ⟨_, ht⟩ hm hr fun Γ' r a b c d => ⟨a, b, c, by rintro _ ⟨rfl⟩; exact d, by simp⟩
  | getLoggerOutputs name =>
    simp only [Task.code, wp_bind]
    refine wp_fetch hm fun own outs r h1 h2 => ?_
    split
    · exact ⟨hf, hm, hr, by simp, by simp⟩
    · exact ⟨hf, hm, hr, by simp, by rintro _ ⟨rfl⟩ o ho; exact Or.inr (h2 _ rfl o ho)⟩
  | newOutput flag =>
    simp only [Task.code, wp_bind]
    exact wp_makeOutput fun o => ⟨hf, hm, hr, by simp, by rintro _ ⟨rfl⟩ o' ho'; rw [List.mem_singleton.mp ho']; exact Or.inl (Or.inr rfl)⟩
  | setLevel r lvl =>
    simp only [wp, Task.code, noResult, wp_bind, wr, wp_pure]
    refine ⟨?_, trivial, hp⟩
    simp [Gh.may, Gh.field, ht, hview r rfl]
  | setCallerSkip r k =>
    simp only [wp, Task.code, noResult, wp_bind, wr, wp_pure]
    refine ⟨?_, trivial, hp⟩
    simp [Gh.may, Gh.field, ht, hview r rfl]
  | setOutputs r ops =>
    simp only [Task.code, noResult, wp_bind]
    refine wp_setOutputs (by simp [Gh.field, ht, hview r rfl]) (by simp [Gh.field, ht, hview r rfl]) (fun o ho => Or.inr (houts o ho)) ?_
    exact post_unit hf hm hr
  | setFormatter o f => exact absurd rfl (hns o f)
  | log r lvl found =>
    have hl : LOk Γ := ⟨⟨_, _, _, ht⟩, hf, hm, hr⟩
    simp only [wp, Task.code, noResult, logCall, wp_bind, rd, Gh.may, Gh.val, Gh.learn, true_and]
    refine ⟨hl.field (hview r rfl), fun _ _ => ⟨hl.field (hview r rfl), fun _ _ => ?_⟩⟩
    exact wp_writeLog hl (fun Γ' l _ => post_unit l.2.1 l.2.2.1 l.2.2.2) hl rfl (Nat.lt_succ_self _) (hview r rfl)
  | close ord =>
    simp only [wp, Task.code, noResult, closeManager, wp_bind, acquire, release, rd, wp_pure, Gh.lockTo]
    refine ⟨by simp, ?_⟩
    rintro _ rfl
    refine ⟨rfl, fun os _ => wp_closeAll ⟨rfl, post_unit hf rfl hr⟩ fun o ho => Or.inr ?_⟩
    exact ((hord ord rfl os).mem_iff).mp ho
  | begin o => exact hp
  | tick o =>
    simp only [Task.code, noResult, wp_bind]
    exact wp_flush (Or.inr (Or.inr (hshp o (Or.inl rfl)))) (by rw [ht]; rfl) hr hp
  | event o e =>
    simp only [Task.code, noResult, wp_bind]
    exact wp_handle (hev o e rfl).1 (hev o e rfl).2 (by rw [ht]; rfl) hr hp
  | stop o =>
    simp only [Task.code, noResult, wp_bind]
    exact wp_flush (Or.inr (Or.inr (hshp o (Or.inr rfl)))) (by rw [ht]; rfl) hr hp

end Log4g.Races
