import Verif.Lemmas.RacesInv

/-! # Data races: executions that can be computed -/

namespace Log4g.Races
open Spec

/-- The order of a map as it is written down. -/
def asIs (m : Map Str Nat) : List Nat := m.map (·.2)

def hasOrd : Task → Bool
  | .setConfig _ _ => true
  | .close _ => true
  | _ => false

/-- A schedule: calls begin, and calls go on for some steps, or as far as they can. -/
inductive Do
  | call (t : Who) (c : Task)
  | config (t : Nat) (cfg : Config)
  | close (t : Nat)
  | steps (t : Who) (n : Nat)

def begin? (x : List Entry × State) (t : Who) (c : Task) : Option (List Entry × State) :=
  match x.2.running t with
  | some _ => none
  | none =>
    match first x.1.length x.2 t c with
    | none => none
    | some (a, s') => some (x.1 ++ [⟨t, x.1.length, c, a⟩], { s' with running := set x.2.running t (some ⟨x.1.length, c, c.code⟩) })

def step? (x : List Entry × State) (t : Who) : Option (List Entry × State) :=
  match x.2.running t with
  | none => none
  | some p =>
    match p.code with
    | .ret res => some (x.1 ++ [⟨t, p.cid, p.task, .ret res⟩], { x.2 with running := set x.2.running t none })
    | code =>
      match next x.1.length x.2 t code with
      | none => none
      | some (a, k, s') => some (x.1 ++ [⟨t, p.cid, p.task, a⟩], { s' with running := set x.2.running t (some { p with code := k }) })

def steps? (x : List Entry × State) (t : Who) : Nat → Option (List Entry × State)
  | 0 => some x
  | n + 1 =>
    match step? x t with
    | none => some x
    | some y => steps? y t n

def do? (x : List Entry × State) : Do → Option (List Entry × State)
  | .call t c => if hasOrd c then none else begin? x t c
  | .config t cfg => begin? x (.user t) (.setConfig cfg asIs)
  | .close t => begin? x (.user t) (.close asIs)
  | .steps t n => steps? x t n

def run? (x : List Entry × State) : List Do → Option (List Entry × State)
  | [] => some x
  | d :: ds =>
    match do? x d with
    | none => none
    | some y => run? y ds

theorem begin_exec {x y : List Entry × State} {t : Who} {c : Task} (hx : Exec x.1 x.2) (ho : ∀ cfg ord, c = .setConfig cfg ord ∨ c = .close ord → ∀ m, (ord m).Perm (m.map (·.2)))
    (h : begin? x t c = some y) : Exec y.1 y.2 := by
  unfold begin? at h
  split at h
  · cases h
  · rename_i hr
    split at h
    · cases h
    · rename_i a s' hf
      cases h
      exact .call hx hr ho hf

theorem step_exec {x y : List Entry × State} {t : Who} (hx : Exec x.1 x.2) (h : step? x t = some y) : Exec y.1 y.2 := by
  unfold step? at h
  split at h
  · cases h
  · rename_i p hr
    split at h
    · rename_i res hc
      cases h
      exact .ret hx hr hc
    · split at h
      · cases h
      · rename_i a k s' hn
        cases h
        exact .step hx hr hn

theorem steps_exec (n : Nat) : ∀ {x y : List Entry × State} {t : Who}, Exec x.1 x.2 → steps? x t n = some y → Exec y.1 y.2 := by
  induction n with
  | zero => intro x y t hx h; cases h; exact hx
  | succ n ih =>
    intro x y t hx h
    simp only [steps?] at h
    split at h
    · cases h; exact hx
    · rename_i z hz
      exact ih (step_exec hx hz) h

theorem do_exec {x y : List Entry × State} {d : Do} (hx : Exec x.1 x.2) (h : do? x d = some y) : Exec y.1 y.2 := by
  cases d with
  | call t c =>
    simp only [do?] at h
    split at h
    · cases h
    · rename_i hc
      refine begin_exec hx ?_ h
      rintro cfg ord (rfl | rfl) <;> simp [hasOrd] at hc
  | config t cfg =>
    simp only [do?] at h
    refine begin_exec hx ?_ h
    rintro cfg ord (e | e) m <;> cases e
    exact List.Perm.refl _
  | close t =>
    simp only [do?] at h
    refine begin_exec hx ?_ h
    rintro cfg ord (e | e) m <;> cases e
    exact List.Perm.refl _
  | steps t n => exact steps_exec n hx h

theorem run_exec (ds : List Do) : ∀ {x y : List Entry × State}, Exec x.1 x.2 → run? x ds = some y → Exec y.1 y.2 := by
  induction ds with
  | nil => intro x y hx h; cases h; exact hx
  | cons d ds ih =>
    intro x y hx h
    simp only [run?] at h
    split at h
    · cases h
    · rename_i z hz
      exact ih (do_exec hx hz) h

/-- The execution of a schedule from the start. -/
def trace (ds : List Do) : List Entry :=
  match run? ([], { mem := emptyMem }) ds with
  | none => []
  | some y => y.1

theorem trace_exec (ds : List Do) : ∃ s, Exec (trace ds) s := by
  unfold trace
  split
  · exact ⟨_, .start⟩
  · rename_i y hy
    exact ⟨y.2, run_exec ds .start hy⟩

/-- The state in the end. -/
def final (ds : List Do) : State :=
  match run? ([], { mem := emptyMem }) ds with
  | none => { mem := emptyMem }
  | some y => y.2

theorem final_exec (ds : List Do) : Exec (trace ds) (final ds) := by
  unfold trace final
  split
  · exact .start
  · rename_i y hy
    exact run_exec ds .start hy

theorem known_of {s : State} (h : (List.range s.nout).all (fun o => decide (answers (s.mem (.shape o)) (s.mem (.fmt o)) ≤ 2)) = true) : KnownFlags s := by
  intro o ho
  have := List.all_eq_true.mp h o (List.mem_range.mpr ho)
  exact of_decide_eq_true this

/-! ## Checks -/

/-- The main goroutine makes the first `k` steps before it starts the others. -/
def after (k : Nat) (i j : Nat) : Prop := i < k ∧ k ≤ j

def sync2 : StepKind → StepKind → Bool
  | .unlock m, .lock m' => decide (m = m')
  | .go o, .begin o' => decide (o = o')
  | .store o, .load o' => decide (o = o')
  | .done o, .waited o' => decide (o = o')
  | _, _ => false

def from2 (i : Nat) : StepKind → Bool
  | .recv _ _ src => decide (src = i)
  | .send _ _ (some src) => decide (src = i)
  | _ => false

def edge (k : Nat) (tr : List Entry) (i j : Nat) : Bool :=
  decide (i < j) &&
    match tr[i]?, tr[j]? with
    | some a, some b => decide (a.who = b.who) || sync2 a.act b.act || from2 i b.act || (decide (i < k) && decide (k ≤ j))
    | _, _ => false

theorem edge_of_sync {k : Nat} {tr : List Entry} {i j : Nat} (h : Sync (after k) tr i j) : edge k tr i j = true := by
  have hlt := sync_lt h
  have hi : ∃ a, tr[i]? = some a := ⟨tr[i]'(by omega), List.getElem?_eq_getElem _⟩
  have hj : ∃ b, tr[j]? = some b := ⟨tr[j]'(by omega), List.getElem?_eq_getElem _⟩
  obtain ⟨a, ha⟩ := hi
  obtain ⟨b, hb⟩ := hj
  unfold edge
  rw [ha, hb]
  simp only [Bool.and_eq_true, Bool.or_eq_true, decide_eq_true_eq]
  refine ⟨hlt.1, ?_⟩
  cases h with
  | seq _ h1 h2 h3 => rw [ha] at h1; rw [hb] at h2; cases h1; cases h2; exact Or.inl (Or.inl (Or.inl h3))
  | lock _ h1 h2 h3 h4 => rw [ha] at h1; rw [hb] at h2; cases h1; cases h2; rw [h3, h4]; simp [sync2]
  | go _ h1 h2 h3 h4 => rw [ha] at h1; rw [hb] at h2; cases h1; cases h2; rw [h3, h4]; simp [sync2]
  | message _ h2 h4 => rw [hb] at h2; cases h2; rw [h4]; simp [from2]
  | room _ h2 h4 => rw [hb] at h2; cases h2; rw [h4]; simp [from2]
  | atomic _ h1 h2 h3 h4 => rw [ha] at h1; rw [hb] at h2; cases h1; cases h2; rw [h3, h4]; simp [sync2]
  | done _ h1 h2 h3 h4 => rw [ha] at h1; rw [hb] at h2; cases h1; cases h2; rw [h3, h4]; simp [sync2]
  | user _ _ h3 => exact Or.inr h3

theorem sync_of_edge {k : Nat} {tr : List Entry} {i j : Nat} (h : edge k tr i j = true) : Sync (after k) tr i j := by
  unfold edge at h
  simp only [Bool.and_eq_true, decide_eq_true_eq] at h
  obtain ⟨hlt, h⟩ := h
  split at h
  · rename_i a b ha hb
    simp only [Bool.or_eq_true, Bool.and_eq_true, decide_eq_true_eq] at h
    rcases h with ((h | h) | h) | h
    · exact .seq hlt ha hb h
    · generalize hx : a.act = x at h
      generalize hy : b.act = y at h
      unfold sync2 at h
      split at h <;> simp only [decide_eq_true_eq, Bool.false_eq_true] at h <;> subst h
      · exact .lock hlt ha hb hx hy
      · exact .go hlt ha hb hx hy
      · exact .atomic hlt ha hb hx hy
      · exact .done hlt ha hb hx hy
    · generalize hy : b.act = y at h
      unfold from2 at h
      split at h <;> simp only [decide_eq_true_eq, Bool.false_eq_true] at h <;> subst h
      · exact .message hlt hb hy
      · exact .room hlt hb hy
    · exact .user hlt (get_lt hb) h
  · cases h

/-- From the steps in `set` only steps in `set` are reached. -/
def shutIn (k : Nat) (tr : List Entry) (S : List Nat) : Bool :=
  S.all fun a => (List.range tr.length).all fun b => decide (b ∈ S) || !edge k tr a b

theorem shut_before {k : Nat} {tr : List Entry} {S : List Nat} (hs : shutIn k tr S = true) {i j : Nat} (hi : i ∈ S) (h : Before (after k) tr i j) : j ∈ S := by
  have key : ∀ a b, a ∈ S → Sync (after k) tr a b → b ∈ S := by
    intro a b ha hsy
    simp only [shutIn, List.all_eq_true] at hs
    have := hs a ha b (List.mem_range.mpr (sync_lt hsy).2)
    rw [edge_of_sync hsy] at this
    simpa using this
  induction h with
  | one h => exact key _ _ hi h
  | more _ h ih => exact key _ _ ih h

def conflict (l : Loc) (a b : Entry) : Bool :=
  decide (a.who ≠ b.who) && (decide (a.act = .acc true l) && (decide (b.act = .acc true l) || decide (b.act = .acc false l)) || decide (a.act = .acc false l) && decide (b.act = .acc true l))

/-- There is a race between steps `i` and `j`. -/
def raceAt (k : Nat) (tr : List Entry) (l : Loc) (i j : Nat) (S : List Nat) : Bool :=
  match tr[i]?, tr[j]? with
  | some a, some b => conflict l a b && decide (i < j) && decide (i ∈ S) && !decide (j ∈ S) && shutIn k tr S
  | _, _ => false

theorem race_of {k : Nat} {tr : List Entry} {l : Loc} {i j : Nat} {S : List Nat} (h : raceAt k tr l i j S = true) : Race (after k) tr l := by
  unfold raceAt at h
  split at h
  · rename_i a b ha hb
    simp only [Bool.and_eq_true, Bool.not_eq_true', decide_eq_true_eq, decide_eq_false_iff_not, conflict, Bool.or_eq_true, ne_eq] at h
    obtain ⟨⟨⟨⟨⟨h0, h1⟩, h2⟩, h3⟩, h4⟩, h5⟩ := h
    have hn : ¬ Before (after k) tr i j := fun hbf => h4 (shut_before h5 h3 hbf)
    rcases h1 with ⟨e1, e2 | e2⟩ | ⟨e1, e2⟩
    · exact ⟨i, j, a, b, true, true, ha, hb, h0, e1, e2, Or.inl rfl, h2, hn⟩
    · exact ⟨i, j, a, b, true, false, ha, hb, h0, e1, e2, Or.inl rfl, h2, hn⟩
    · exact ⟨i, j, a, b, false, true, ha, hb, h0, e1, e2, Or.inr rfl, h2, hn⟩
  · cases h

def returns (r : Nat) (a : Entry) : Bool := decide (a.act = .ret (.logger r))

def returnsOut (o : Nat) (a : Entry) : Bool :=
  match a.act with
  | .ret (.outputs os) => decide (o ∈ os)
  | _ => false

def isRet (p : Nat) (a : Entry) : Bool :=
  match a.act with
  | .ret _ => decide (a.cid = p)
  | _ => false

/-- Some step with property `f` comes directly before step `q`. -/
def some? (k : Nat) (tr : List Entry) (q : Nat) (f : Entry → Bool) : Bool :=
  (List.range tr.length).any fun i =>
    (match tr[i]? with
    | some a => f a
    | none => false) && edge k tr i q

theorem some_of {k : Nat} {tr : List Entry} {q : Nat} {f : Entry → Bool} (h : some? k tr q f = true) : ∃ i a, tr[i]? = some a ∧ f a = true ∧ Before (after k) tr i q := by
  simp only [some?, List.any_eq_true, Bool.and_eq_true] at h
  obtain ⟨i, -, h1, h2⟩ := h
  split at h1
  · exact ⟨i, _, ‹_›, h1, .one (sync_of_edge h2)⟩
  · cases h1

def obtained? (k : Nat) (tr : List Entry) : Bool :=
  (List.range tr.length).all fun q =>
    match tr[q]? with
    | none => true
    | some b => decide (b.cid ≠ q) ||
      ((match target b.task with
        | none => true
        | some r => some? k tr q (returns r)) && (given b.task).all fun o => some? k tr q (returnsOut o))

theorem obtained_of {k : Nat} {tr : List Entry} (h : obtained? k tr = true) : Obtained (after k) tr := by
  intro q b ⟨hb, hc⟩
  simp only [obtained?, List.all_eq_true, List.mem_range] at h
  have := h q (get_lt hb)
  rw [hb] at this
  simp only [Bool.or_eq_true, decide_eq_true_eq, Bool.and_eq_true] at this
  rcases this with this | ⟨h1, h2⟩
  · exact absurd hc this
  · refine ⟨fun r hr => ?_, fun o ho => ?_⟩
    · rw [hr] at h1
      obtain ⟨i, a, h3, h4, h5⟩ := some_of h1
      exact ⟨i, a, h3, by simpa [returns] using h4, h5⟩
    · obtain ⟨i, a, h3, h4, h5⟩ := some_of (List.all_eq_true.mp h2 o ho)
      unfold returnsOut at h4
      split at h4
      · rename_i os e
        exact ⟨i, a, os, h3, e, by simpa using h4, h5⟩
      · cases h4

def clash? : Task → Task → Bool
  | c, .log _ _ _ =>
    (match c with
    | .setConfig _ _ => true
    | _ => (sets c).isSome)
  | c, .setConfig _ _ => (sets c).isSome
  | c, d => (sets c).isSome && decide (sets c = sets d)

theorem clash_of {c d : Task} (h : Clash c d) : clash? c d = true := by
  cases h with
  | setters h1 h2 => cases c <;> cases d <;> simp_all [clash?, sets]
  | setLog h1 => cases c <;> simp_all [clash?, sets]
  | setConfig h1 => cases c <;> simp_all [clash?, sets]
  | configLog => simp [clash?]

def ordered? (k : Nat) (tr : List Entry) : Bool :=
  (List.range tr.length).all fun p => (List.range tr.length).all fun q =>
    match tr[p]?, tr[q]? with
    | some a, some b => decide (a.cid ≠ p) || decide (b.cid ≠ q) || decide (a.who = b.who) || !clash? a.task b.task ||
      some? k tr q (isRet p) || some? k tr p (isRet q)
    | _, _ => true

theorem ordered_of {k : Nat} {tr : List Entry} (h : ordered? k tr = true) : Ordered (after k) tr := by
  intro p q a b ⟨ha, hca⟩ ⟨hb, hcb⟩ hw hcl
  simp only [ordered?, List.all_eq_true, List.mem_range] at h
  have := h p (get_lt ha) q (get_lt hb)
  rw [ha, hb] at this
  simp only [Bool.or_eq_true, decide_eq_true_eq, clash_of hcl, Bool.not_true, Bool.false_eq_true, or_false] at this
  have fin : ∀ {p q}, some? k tr q (isRet p) = true → Finished (after k) tr p q := by
    intro p q h
    obtain ⟨i, e, h3, h4, h5⟩ := some_of h
    unfold isRet at h4
    split at h4
    · rename_i res he
      exact ⟨i, e, res, h3, by simpa using h4, he, h5⟩
    · cases h4
  rcases this with (((h1 | h1) | h1) | h1) | h1
  · exact absurd hca h1
  · exact absurd hcb h1
  · exact absurd h1 hw
  · exact Or.inl (fin h1)
  · exact Or.inr (fin h1)

def noSet? (tr : List Entry) : Bool :=
  tr.all fun a =>
    match a.task with
    | .setFormatter _ _ => false
    | _ => true

theorem noSet_of {tr : List Entry} (h : noSet? tr = true) : NoSetFormatter tr := by
  intro i a o f hi he
  have := List.all_eq_true.mp h a (List.mem_of_getElem? hi)
  rw [he] at this
  cases this

end Log4g.Races
