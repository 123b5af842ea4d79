import Verif.Lemmas.System

/-! # A whole program: invariants -/

namespace Log4g
open Spec
open scoped List
variable {V : Type}

/-- Log calls send only to outputs that exist. -/
theorem sent_outs {w : World} (inv : WInv w) (now fuel : Nat) (stack : List Frame) (r : Nat) (ctx : Ctx V) (name : Str) (skip : Int)
    (lvl : Level) (fmt : Str) (args : List V) :
    ∀ d ∈ (w.write now fuel stack r ctx name skip lvl fmt args).deliveries, d.out < w.mgr.oheap.length := by
  have disp : ∀ {r : Nat} {l : Logger} (stack : List Frame) (ctx : Ctx V), w.heap[r]? = some l →
      ∀ d ∈ (World.dispatch l stack now ctx name skip lvl fmt args).deliveries, d.out < w.mgr.oheap.length := by
    intro r l stack ctx hl d hd
    unfold World.dispatch at hd
    dsimp only at hd
    split at hd
    · simp [World.Outcome.deliveries] at hd
    · simp only [World.Outcome.deliveries, List.mem_map] at hd
      obtain ⟨o, ho, rfl⟩ := hd
      exact inv.outs r l hl o ho
  induction fuel generalizing stack r ctx skip with
  | zero => simp [World.write, World.Outcome.deliveries]
  | succ fuel ih =>
    unfold World.write
    split
    · simp [World.Outcome.deliveries]
    · rename_i l hl
      split
      · simp [World.Outcome.deliveries]
      · split
        · split
          · exact ih _ _ _ _ (fun stack ctx hl => by
              intro d hd
              unfold World.dispatch at hd
              dsimp only at hd
              split at hd
              · simp [World.Outcome.deliveries] at hd
              · simp only [World.Outcome.deliveries, List.mem_map] at hd
                obtain ⟨o, ho, rfl⟩ := hd
                exact inv.outs _ _ hl o ho)
          · exact disp _ _ hl
        · exact disp _ _ hl

theorem printf_outs {w : World} (inv : WInv w) {now : Nat} {stack : List Frame} {r : Nat} {ctx : Ctx V} {lvl : Level} {fmt : Str}
    {args : List V} {ds : List (World.Delivery V)} (h : w.printf now stack r ctx lvl fmt args = .sent ds) :
    ∀ d ∈ ds, d.out < w.mgr.oheap.length := by
  have : ∀ d ∈ (w.printf now stack r ctx lvl fmt args).deliveries, d.out < w.mgr.oheap.length := by
    unfold World.printf
    split
    · simp [World.Outcome.deliveries]
    · exact sent_outs inv _ _ _ _ _ _ _ _ _ _
  rw [h] at this
  exact this

theorem mapped_outs {w : World} (inv : WInv w) {o : Nat} (h : o ∈ w.mgr.outputs.map (·.2)) : o < w.mgr.oheap.length := by
  obtain ⟨⟨k, v⟩, hm, rfl⟩ := List.mem_map.mp h
  obtain ⟨cfg, f, h1, _⟩ := inv.mgr.outOk k v (Map.get_of_mem inv.mgr.nodup hm)
  exact (List.getElem?_eq_some_iff.mp h1).1

theorem outLabs_append (o : Nat) (a b : List (PLab V)) : outLabs o (a ++ b) = outLabs o a ++ outLabs o b := List.flatMap_append
theorem enteredBy_append (o t : Nat) (a b : List (PLab V)) : enteredBy o t (a ++ b) = enteredBy o t a ++ enteredBy o t b := List.flatMap_append
theorem sentBy_append (t o : Nat) (a b : List (PLab V)) : sentBy t o (a ++ b) = sentBy t o a ++ sentBy t o b := List.flatMap_append
theorem sendsOf_append (a b : List (ACall V)) : sendsOf (a ++ b) = sendsOf a ++ sendsOf b := by
  induction a with
  | nil => rfl
  | cons x a ih => cases x <;> simp [sendsOf, ih]

/-- The events among the calls a goroutine has yet to make that go to `o`. -/
def toSend (o : Nat) (todo : List (Nat × ACall V)) : List (Event V) := sendsOf ((todo.filter fun p => p.1 = o).map (·.2))

/-- What holds in every state of a program. -/
structure PInv (env : PEnv V) (tr : List (PLab V)) (s : PState V) : Prop where
  world : WInv s.w
  proj : ∀ o cfg, s.w.asyncOf env o = some cfg → AExec cfg (newAsync fun t => enteredBy o t tr) (outLabs o tr) (s.a o)
  none : ∀ o, s.w.asyncOf env o = none → outLabs o tr = [] ∧ s.a o = newAsync (fun _ => []) ∧ ∀ t, enteredBy o t tr = []
  todo : ∀ t p, p ∈ (s.th t).todo → p.1 < s.w.mgr.oheap.length
  away : ∀ t o, (s.th t).inside ≠ some o → (s.a o).th t = {}
  lone : ∀ t o, Lone ((s.a o).th t)
  inside : ∀ t o, (s.th t).inside = some o → s.w.asyncOf env o ≠ Option.none
  rest : ∀ t, (s.th t).call = Option.none → s.th t = {}
  logs : ∀ t, (s.th t).call = some .log → (∀ p ∈ (s.th t).todo, p.2 ≠ .close) ∧ ∀ o, Sender ((s.a o).th t)
  direct : Tame tr → ∀ t, (s.th t).call = some .direct → (∀ p ∈ (s.th t).todo, p.2 ≠ .close) ∧ ∀ o, Sender ((s.a o).th t)
  closes : ∀ t, (s.th t).call = some .close → (∀ p ∈ (s.th t).todo, p.2 = .close) ∧ ∀ o, Closer ((s.a o).th t)
  lock : ∀ t, s.lock = some t ↔ (s.th t).call = some .close
  order : ∀ t o, s.w.asyncOf env o ≠ Option.none → sendsOf (enteredBy o t tr) ++ toSend o (s.th t).todo = sentBy t o tr
  fresh : ∀ t o, s.w.mgr.oheap.length ≤ o → sentBy t o tr = []
  sound : s.panicked = false → ∀ o, (s.a o).panicked = false
  opened : ∀ o, Open o tr → ∀ t, (∀ p ∈ (s.th t).todo, p.1 = o → p.2 ≠ .close) ∧ ACall.close ∉ enteredBy o t tr

theorem pset_th (s : PState V) (t : Nat) (x : PThread V) (u : Nat) : (s.set t x).th u = if u = t then x else s.th u := rfl
theorem setOut_a (s : PState V) (o : Nat) (x : AState V) (p : Nat) : (s.setOut o x).a p = if p = o then x else s.a p := rfl

theorem open_left {o : Nat} {a b : List (PLab V)} (h : Open o (a ++ b)) : Open o a :=
  ⟨fun t os hm => h.1 t os (List.mem_append_left _ hm), fun t hm => h.2 t (List.mem_append_left _ hm)⟩
theorem tame_left {a b : List (PLab V)} (h : Tame (a ++ b)) : Tame a := fun t o hm => h t o (List.mem_append_left _ hm)

theorem sender_still : Sender ({} : Thread V) := ⟨.inl rfl, by simp⟩
theorem closer_still : Closer ({} : Thread V) := ⟨by simp, by simp⟩

/-- A step of one goroutine that no output sees. -/
theorem PInv.move {env : PEnv V} {tr : List (PLab V)} {s s' : PState V} (h : PInv env tr s) {l : PLab V} (hw : s'.w = s.w) (ha : s'.a = s.a)
    (hout : ∀ o, outLabs o [l] = []) (hen : ∀ o t, enteredBy o t [l] = []) (t : Nat) (x : PThread V)
    (hth : ∀ u, s'.th u = if u = t then x else s.th u)
    (htodo : ∀ p ∈ x.todo, p.1 < s.w.mgr.oheap.length)
    (hin : x.inside = (s.th t).inside ∨ (x.inside = Option.none ∧ ∀ o, (s.a o).th t = {}))
    (hrest : x.call = Option.none → x = {})
    (hkind : (x.call = (s.th t).call ∧ ∀ p ∈ x.todo, p ∈ (s.th t).todo) ∨
      ((∀ o, (s.a o).th t = {}) ∧ (x.call = some .log → ∀ p ∈ x.todo, p.2 ≠ .close) ∧
        (x.call = some .direct → Tame (tr ++ [l]) → ∀ p ∈ x.todo, p.2 ≠ .close) ∧ (x.call = some .close → ∀ p ∈ x.todo, p.2 = .close)))
    (hlock : ∀ u, s'.lock = some u ↔ (s'.th u).call = some .close)
    (horder : ∀ o, s.w.asyncOf env o ≠ Option.none → toSend o x.todo = toSend o (s.th t).todo ++ sentBy t o [l])
    (hother : ∀ u o, u ≠ t → sentBy u o [l] = [])
    (hfresh : ∀ o, s.w.mgr.oheap.length ≤ o → sentBy t o [l] = [])
    (hsound : s'.panicked = false → s.panicked = false)
    (hopen : ∀ o, Open o (tr ++ [l]) → ∀ p ∈ x.todo, p.1 = o → p.2 ≠ .close) : PInv env (tr ++ [l]) s' := by
  have hout' : ∀ o, outLabs o (tr ++ [l]) = outLabs o tr := fun o => by rw [outLabs_append, hout, List.append_nil]
  have hen' : ∀ o t, enteredBy o t (tr ++ [l]) = enteredBy o t tr := fun o t => by rw [enteredBy_append, hen, List.append_nil]
  have cases_th : ∀ u, (u = t ∧ s'.th u = x) ∨ (u ≠ t ∧ s'.th u = s.th u) := by
    intro u
    rw [hth]
    by_cases hu : u = t
    · exact .inl ⟨hu, if_pos hu⟩
    · exact .inr ⟨hu, if_neg hu⟩
  refine ⟨hw ▸ h.world, ?_, ?_, ?_, ?_, ?_, ?_, ?_, ?_, ?_, ?_, hlock, ?_, ?_, ?_, ?_⟩
  · intro o cfg hc
    rw [hw] at hc
    rw [hout', ha]
    simp only [hen']
    exact h.proj o cfg hc
  · intro o hc
    rw [hw] at hc
    rw [hout', ha]
    simp only [hen']
    exact h.none o hc
  · intro u p hp
    rw [hw]
    rcases cases_th u with ⟨_, e⟩ | ⟨_, e⟩
    · rw [e] at hp; exact htodo p hp
    · rw [e] at hp; exact h.todo u p hp
  · intro u o hi
    rw [ha]
    rcases cases_th u with ⟨rfl, e⟩ | ⟨_, e⟩
    · rw [e] at hi
      rcases hin with k | k
      · rw [k] at hi; exact h.away u o hi
      · exact k.2 o
    · rw [e] at hi; exact h.away u o hi
  · intro u o; rw [ha]; exact h.lone u o
  · intro u o hi
    rw [hw]
    rcases cases_th u with ⟨rfl, e⟩ | ⟨_, e⟩
    · rw [e] at hi
      rcases hin with k | k
      · rw [k] at hi; exact h.inside u o hi
      · rw [k.1] at hi; simp at hi
    · rw [e] at hi; exact h.inside u o hi
  · intro u hu
    rcases cases_th u with ⟨rfl, e⟩ | ⟨_, e⟩
    · rw [e] at hu ⊢; exact hrest hu
    · rw [e] at hu ⊢; exact h.rest u hu
  · intro u hu
    rw [ha]
    rcases cases_th u with ⟨rfl, e⟩ | ⟨_, e⟩
    · rw [e] at hu ⊢
      rcases hkind with k | k
      · rw [k.1] at hu
        exact ⟨fun p hp => (h.logs u hu).1 p (k.2 p hp), (h.logs u hu).2⟩
      · exact ⟨k.2.1 hu, fun o => by rw [k.1 o]; exact sender_still⟩
    · rw [e] at hu ⊢; exact h.logs u hu
  · intro ht u hu
    rw [ha]
    rcases cases_th u with ⟨rfl, e⟩ | ⟨_, e⟩
    · rw [e] at hu ⊢
      rcases hkind with k | k
      · rw [k.1] at hu
        exact ⟨fun p hp => (h.direct (tame_left ht) u hu).1 p (k.2 p hp), (h.direct (tame_left ht) u hu).2⟩
      · exact ⟨k.2.2.1 hu ht, fun o => by rw [k.1 o]; exact sender_still⟩
    · rw [e] at hu ⊢; exact h.direct (tame_left ht) u hu
  · intro u hu
    rw [ha]
    rcases cases_th u with ⟨rfl, e⟩ | ⟨_, e⟩
    · rw [e] at hu ⊢
      rcases hkind with k | k
      · rw [k.1] at hu
        exact ⟨fun p hp => (h.closes u hu).1 p (k.2 p hp), (h.closes u hu).2⟩
      · exact ⟨k.2.2.2 hu, fun o => by rw [k.1 o]; exact closer_still⟩
    · rw [e] at hu ⊢; exact h.closes u hu
  · intro u o hc
    rw [hw] at hc
    rw [hen', sentBy_append]
    rcases cases_th u with ⟨rfl, e⟩ | ⟨hu, e⟩
    · rw [e, horder o hc, ← List.append_assoc, h.order u o hc]
    · rw [e, hother u o hu, List.append_nil, h.order u o hc]
  · intro u o ho
    rw [hw] at ho
    rw [sentBy_append, h.fresh u o ho]
    by_cases hu : u = t
    · subst hu; rw [hfresh o ho]; rfl
    · rw [hother u o hu]; rfl
  · intro hp o; rw [ha]; exact h.sound (hsound hp) o
  · intro o ho u
    rw [hen']
    refine ⟨?_, (h.opened o (open_left ho) u).2⟩
    rcases cases_th u with ⟨rfl, e⟩ | ⟨_, e⟩
    · rw [e]; exact hopen o ho
    · rw [e]; exact (h.opened o (open_left ho) u).1

theorem pinv_act {env : PEnv V} {tr : List (PLab V)} {s : PState V} {a : Act} (h : PInv env tr s) (hok : a.ok s.w) :
    PInv env (tr ++ [.act a]) { s with w := a.run s.w } := by
  obtain ⟨wi, x⟩ := step_inv h.world a hok
  have hout' : ∀ o, outLabs o (tr ++ [.act a]) = outLabs o tr := fun o => by simp [outLabs]
  have hen' : ∀ o t, enteredBy o t (tr ++ [.act a]) = enteredBy o t tr := fun o t => by simp [enteredBy]
  have hse' : ∀ t o, sentBy t o (tr ++ [.act a]) = sentBy t o tr := fun t o => by simp [sentBy]
  have hlen := ext_length x
  -- an output that does not exist yet
  have new : ∀ o, s.w.mgr.oheap.length ≤ o → s.w.asyncOf env o = Option.none := by
    intro o ho
    unfold World.asyncOf
    rw [List.getElem?_eq_none ho]
  have old : ∀ o, (a.run s.w).asyncOf env o = s.w.asyncOf env o ∨ (s.w.mgr.oheap.length ≤ o ∧ s.w.asyncOf env o = Option.none) := by
    intro o
    by_cases ho : o < s.w.mgr.oheap.length
    · exact .inl (ext_asyncOf env h.world x ho)
    · exact .inr ⟨by omega, new o (by omega)⟩
  refine ⟨wi, ?_, ?_, fun t p hp => Nat.lt_of_lt_of_le (h.todo t p hp) hlen, h.away, h.lone, ?_, h.rest, h.logs, fun ht => h.direct (tame_left ht), h.closes,
    h.lock, ?_, ?_, h.sound, ?_⟩
  · intro o cfg hc
    simp only [hout', hen']
    rcases old o with k | ⟨_, k⟩
    · rw [k] at hc; exact h.proj o cfg hc
    · obtain ⟨h1, h2, h3⟩ := h.none o k
      rw [h1, h2]
      simp only [h3]
      exact .nil
  · intro o hc
    simp only [hout', hen']
    rcases old o with k | ⟨_, k⟩
    · rw [k] at hc; exact h.none o hc
    · exact h.none o k
  · intro t o hi
    have := h.inside t o hi
    rcases old o with k | ⟨_, k⟩
    · rw [k]; exact this
    · exact absurd k this
  · intro t o hc
    rw [hen', hse']
    rcases old o with k | ⟨k1, k⟩
    · rw [k] at hc; exact h.order t o hc
    · rw [(h.none o k).2.2 t, h.fresh t o k1]
      show toSend o _ = []
      have : (s.th t).todo.filter (fun p => p.1 = o) = [] := by
        rw [List.filter_eq_nil_iff]
        intro p hp
        have := h.todo t p hp
        simp only [decide_eq_true_eq]
        omega
      simp [toSend, this, sendsOf]
  · intro t o ho
    rw [hse']
    have ho : (a.run s.w).mgr.oheap.length ≤ o := ho
    exact h.fresh t o (by omega)
  · intro o ho t
    rw [hen']
    exact h.opened o (open_left ho) t

theorem toSend_cons (o p : Nat) (c : ACall V) (rest : List (Nat × ACall V)) :
    toSend o ((p, c) :: rest) = (if p = o then sendsOf [c] else []) ++ toSend o rest := by
  unfold toSend
  by_cases h : p = o
  · simp only [h, List.filter_cons, decide_true, if_true, List.map_cons]
    rw [← sendsOf_append]; rfl
  · simp [h]

theorem toSend_log (o : Nat) (ds : List (World.Delivery V)) :
    toSend o (ds.map fun d => (d.out, ACall.send d.evt)) = (ds.filter fun d => d.out = o).map (·.evt) := by
  induction ds with
  | nil => rfl
  | cons d ds ih =>
    rw [List.map_cons, toSend_cons, ih, List.filter_cons]
    by_cases h : d.out = o <;> simp [h, sendsOf]

theorem toSend_close (o : Nat) (os : List Nat) : toSend o (os.map fun p => (p, (ACall.close : ACall V))) = [] := by
  induction os with
  | nil => rfl
  | cons p os ih => rw [List.map_cons, toSend_cons, ih]; simp [sendsOf]

theorem push_self (s : AState V) (t : Nat) (c : ACall V) (h : s.th t = {}) : (s.push t c).th t = { pc := .idle, todo := [c] } := by
  simp [AState.push, AState.set, h]
theorem push_other (s : AState V) {t u : Nat} (c : ACall V) (h : u ≠ t) : (s.push t c).th u = s.th u := by
  simp [AState.push, AState.set, h]

theorem pinv_enter {env : PEnv V} {tr : List (PLab V)} {s : PState V} {t o : Nat} {k : Option PCall} {c : ACall V} {rest : List (Nat × ACall V)}
    {cfg : ACfg V} (h : PInv env tr s) (ht : s.th t = { call := k, todo := (o, c) :: rest }) (hc : s.w.asyncOf env o = some cfg) :
    PInv env (tr ++ [.enter t o c]) ((s.setOut o ((s.a o).push t c)).set t { call := k, todo := rest, inside := some o }) := by
  have hin : (s.th t).inside = Option.none := by rw [ht]
  have still : ∀ p, (s.a p).th t = {} := fun p => h.away t p (by rw [hin]; simp)
  have hmem : (o, c) ∈ (s.th t).todo := by rw [ht]; simp
  have hsub : ∀ p ∈ rest, p ∈ (s.th t).todo := by rw [ht]; intro p hp; simp [hp]
  have hout' : ∀ p, outLabs p (tr ++ [.enter t o c]) = outLabs p tr := fun o => by simp [outLabs]
  have hse' : ∀ u p, sentBy u p (tr ++ [.enter t o c]) = sentBy u p tr := fun t o => by simp [sentBy]
  have hen' : ∀ p u, enteredBy p u (tr ++ [.enter t o c]) = enteredBy p u tr ++ if o = p ∧ t = u then [c] else [] := by
    intro p u; simp [enteredBy]
  have hk : ∀ u p, ((s.setOut o ((s.a o).push t c)).a p).th u = if p = o ∧ u = t then { pc := .idle, todo := [c] } else (s.a p).th u := by
    intro u p
    rw [setOut_a]
    by_cases hp : p = o
    · subst hp
      by_cases hu : u = t
      · subst hu; simp [push_self _ _ _ (still p)]
      · simp [push_other _ _ hu, hu]
    · simp [hp]
  have hth : ∀ u, (u = t ∧ ((s.setOut o ((s.a o).push t c)).set t { call := k, todo := rest, inside := some o }).th u = { call := k, todo := rest, inside := some o }) ∨
      (u ≠ t ∧ ((s.setOut o ((s.a o).push t c)).set t { call := k, todo := rest, inside := some o }).th u = s.th u) := by
    intro u
    rw [pset_th]
    by_cases hu : u = t
    · exact .inl ⟨hu, if_pos hu⟩
    · exact .inr ⟨hu, if_neg hu⟩
  -- the goroutine that only sends, or only closes, still does
  have kind : ∀ (P : Thread V → Prop), P { pc := .idle, todo := [c] } → ∀ u, (∀ p, P ((s.a p).th u)) → ∀ p, P (((s.setOut o ((s.a o).push t c)).a p).th u) := by
    intro P hP u hu p
    rw [hk]
    split
    · exact hP
    · exact hu p
  refine ⟨h.world, ?_, ?_, ?_, ?_, ?_, ?_, ?_, ?_, ?_, ?_, ?_, ?_, ?_, ?_, ?_⟩
  · intro p cfg' hp
    show AExec cfg' _ _ ((s.setOut o ((s.a o).push t c)).a p)
    rw [hout', setOut_a]
    by_cases hpo : p = o
    · subst hpo
      have := push_new (h.proj p cfg' hp) t c
      simp only [if_true]
      have e : (fun u => enteredBy p u (tr ++ [.enter t p c])) = fun u => enteredBy p u tr ++ if u = t then [c] else [] := by
        funext u; rw [hen']; simp [eq_comm]
      rw [e]
      exact this
    · rw [if_neg hpo]
      have : (fun u => enteredBy p u (tr ++ [.enter t o c])) = fun u => enteredBy p u tr := by
        funext u; rw [hen', if_neg (fun e => hpo e.1.symm), List.append_nil]
      rw [this]
      exact h.proj p cfg' hp
  · intro p hp
    have hpo : p ≠ o := by rintro rfl; have hp : s.w.asyncOf env p = Option.none := hp; rw [hc] at hp; simp at hp
    show _ ∧ (s.setOut o ((s.a o).push t c)).a p = _ ∧ _
    rw [hout', setOut_a, if_neg hpo]
    refine ⟨(h.none p hp).1, (h.none p hp).2.1, fun u => ?_⟩
    rw [hen', if_neg (fun e => hpo e.1.symm), List.append_nil]
    exact (h.none p hp).2.2 u
  · intro u p hp
    rcases hth u with ⟨rfl, e⟩ | ⟨_, e⟩
    · rw [e] at hp; exact h.todo u p (hsub p hp)
    · rw [e] at hp; exact h.todo u p hp
  · intro u p hi
    show ((s.setOut o ((s.a o).push t c)).a p).th u = {}
    rw [hk]
    rcases hth u with ⟨rfl, e⟩ | ⟨hu, e⟩
    · rw [e] at hi
      have hpo : p ≠ o := by rintro rfl; simp at hi
      rw [if_neg (fun e => hpo e.1)]
      exact still p
    · rw [e] at hi
      rw [if_neg (fun e => hu e.2)]
      exact h.away u p hi
  · intro u p
    show Lone (((s.setOut o ((s.a o).push t c)).a p).th u)
    rw [hk]
    split
    · exact .inl ⟨rfl, c, rfl⟩
    · exact h.lone u p
  · intro u p hi
    show s.w.asyncOf env p ≠ Option.none
    rcases hth u with ⟨rfl, e⟩ | ⟨_, e⟩
    · rw [e] at hi
      simp only [Option.some.injEq] at hi
      subst hi
      rw [hc]; simp
    · rw [e] at hi; exact h.inside u p hi
  · intro u hu
    rcases hth u with ⟨rfl, e⟩ | ⟨_, e⟩
    · rw [e] at hu
      have := h.rest u (by rw [ht]; exact hu)
      rw [ht] at this
      simp at this
    · rw [e] at hu ⊢; exact h.rest u hu
  · intro u hu
    rcases hth u with ⟨rfl, e⟩ | ⟨hut, e⟩
    · rw [e] at hu ⊢
      obtain ⟨h1, h2⟩ := h.logs u (by rw [ht]; exact hu)
      exact ⟨fun p hp => h1 p (hsub p hp), kind Sender ⟨.inl rfl, by simpa using (h1 _ hmem).symm⟩ u h2⟩
    · rw [e] at hu ⊢
      refine ⟨(h.logs u hu).1, fun p => ?_⟩
      show Sender (((s.setOut o ((s.a o).push t c)).a p).th u)
      rw [hk, if_neg (fun e => hut e.2)]
      exact (h.logs u hu).2 p
  · intro htm u hu
    rcases hth u with ⟨rfl, e⟩ | ⟨hut, e⟩
    · rw [e] at hu ⊢
      obtain ⟨h1, h2⟩ := h.direct (tame_left htm) u (by rw [ht]; exact hu)
      exact ⟨fun p hp => h1 p (hsub p hp), kind Sender ⟨.inl rfl, by simpa using (h1 _ hmem).symm⟩ u h2⟩
    · rw [e] at hu ⊢
      refine ⟨(h.direct (tame_left htm) u hu).1, fun p => ?_⟩
      show Sender (((s.setOut o ((s.a o).push t c)).a p).th u)
      rw [hk, if_neg (fun e => hut e.2)]
      exact (h.direct (tame_left htm) u hu).2 p
  · intro u hu
    rcases hth u with ⟨rfl, e⟩ | ⟨hut, e⟩
    · rw [e] at hu ⊢
      obtain ⟨h1, h2⟩ := h.closes u (by rw [ht]; exact hu)
      have : c = .close := h1 _ hmem
      subst this
      exact ⟨fun p hp => h1 p (hsub p hp), kind Closer ⟨by simp, by simp⟩ u h2⟩
    · rw [e] at hu ⊢
      refine ⟨(h.closes u hu).1, fun p => ?_⟩
      show Closer (((s.setOut o ((s.a o).push t c)).a p).th u)
      rw [hk, if_neg (fun e => hut e.2)]
      exact (h.closes u hu).2 p
  · intro u
    show s.lock = some u ↔ _
    rw [h.lock]
    rcases hth u with ⟨rfl, e⟩ | ⟨_, e⟩
    · rw [e, ht]
    · rw [e]
  · intro u p hp
    rw [hse', hen']
    rcases hth u with ⟨rfl, e⟩ | ⟨hut, e⟩
    · rw [e, ← h.order u p hp, ht, toSend_cons, sendsOf_append, List.append_assoc]
      by_cases hpo : o = p <;> simp [hpo, sendsOf]
    · rw [e, if_neg (fun e => hut e.2.symm), List.append_nil]
      exact h.order u p hp
  · intro u p hp
    rw [hse']
    exact h.fresh u p hp
  · intro hp p
    show ((s.setOut o ((s.a o).push t c)).a p).panicked = false
    rw [setOut_a]
    split
    · exact h.sound hp o
    · exact h.sound hp p
  · intro p hp u
    have hp' := open_left hp
    rw [hen']
    constructor
    · rcases hth u with ⟨rfl, e⟩ | ⟨_, e⟩
      · rw [e]; exact fun q hq => (h.opened p hp' u).1 q (hsub q hq)
      · rw [e]; exact (h.opened p hp' u).1
    · intro hm
      rcases List.mem_append.mp hm with hm1 | hm1
      · exact (h.opened p hp' u).2 hm1
      · by_cases e : o = p ∧ t = u
        · rw [if_pos e] at hm1
          obtain ⟨rfl, rfl⟩ := e
          exact (h.opened o hp' t).1 _ hmem rfl (List.mem_singleton.mp hm1).symm
        · rw [if_neg e] at hm1; cases hm1

theorem pinv_out {env : PEnv V} {tr : List (PLab V)} {s : PState V} {o : Nat} {l : ALab V} {x : AState V}
    {cfg : ACfg V} (h : PInv env tr s) (hp : s.panicked = false) (hc : s.w.asyncOf env o = some cfg) (hs : AStep cfg (s.a o) l x) :
    PInv env (tr ++ [.out o l]) { s.setOut o x with panicked := x.panicked } := by
  have hout' : ∀ p, outLabs p (tr ++ [.out o l]) = outLabs p tr ++ if o = p then [l] else [] := fun o => by simp [outLabs]
  have hse' : ∀ u p, sentBy u p (tr ++ [.out o l]) = sentBy u p tr := fun t o => by simp [sentBy]
  have hen' : ∀ p u, enteredBy p u (tr ++ [.out o l]) = enteredBy p u tr := fun p u => by simp [enteredBy]
  have keep : ∀ (P : Thread V → Prop), (∀ u, P ((s.a o).th u) → P (x.th u)) → ∀ u p, P ((s.a p).th u) → P (((s.setOut o x).a p).th u) := by
    intro P hP u p hu
    rw [setOut_a]
    split
    · rename_i e; subst e; exact hP u hu
    · exact hu
  refine ⟨h.world, ?_, ?_, h.todo, ?_, ?_, h.inside, h.rest, ?_, ?_, ?_, h.lock, ?_, ?_, ?_, ?_⟩
  · intro p cfg' hp
    show AExec cfg' _ _ ((s.setOut o x).a p)
    simp only [hen']
    rw [hout', setOut_a]
    by_cases hpo : p = o
    · subst hpo
      have hp : s.w.asyncOf env p = some cfg' := hp
      rw [hc] at hp
      injection hp with hp
      subst hp
      simp only [if_true]
      exact .snoc (h.proj p _ hc) hs
    · rw [if_neg hpo, if_neg (Ne.symm hpo), List.append_nil]
      exact h.proj p cfg' hp
  · intro p hp
    have hpo : p ≠ o := by rintro rfl; have hp : s.w.asyncOf env p = Option.none := hp; rw [hc] at hp; simp at hp
    show _ ∧ (s.setOut o x).a p = _ ∧ _
    simp only [hen']
    rw [hout', setOut_a, if_neg hpo, if_neg (Ne.symm hpo), List.append_nil]
    exact h.none p hp
  · intro u p hi
    exact keep (fun y => y = {}) (fun u => still_act hs.2 u) u p (h.away u p hi)
  · intro u p
    exact keep Lone (fun u => lone_act hs.2 u) u p (h.lone u p)
  · intro u hu
    exact ⟨(h.logs u hu).1, fun p => keep Sender (fun u => sender_act hs.2 u) u p ((h.logs u hu).2 p)⟩
  · intro ht u hu
    have := h.direct (tame_left ht) u hu
    exact ⟨this.1, fun p => keep Sender (fun u => sender_act hs.2 u) u p (this.2 p)⟩
  · intro u hu
    exact ⟨(h.closes u hu).1, fun p => keep Closer (fun u => closer_act hs.2 u) u p ((h.closes u hu).2 p)⟩
  · intro u p hp
    rw [hen', hse']
    exact h.order u p hp
  · intro u p hp
    rw [hse']
    exact h.fresh u p hp
  · intro hx p
    show ((s.setOut o x).a p).panicked = false
    rw [setOut_a]
    split
    · exact hx
    · exact h.sound hp p
  · intro p hp u
    rw [hen']
    exact h.opened p (open_left hp) u

theorem pinv_step {env : PEnv V} {tr : List (PLab V)} {s s' : PState V} {l : PLab V} (h : PInv env tr s) (hs : PStep env s l s') :
    PInv env (tr ++ [l]) s' := by
  obtain ⟨hp, hs⟩ := hs
  have same : ∀ {t u : Nat}, s.th u = if u = t then s.th t else s.th u := by
    intro t u; split
    · rename_i e; rw [e]
    · rfl
  have stillAt : ∀ {t}, (s.th t).inside = Option.none → ∀ o, (s.a o).th t = {} := fun {t} e o => h.away t o (by rw [e]; simp)
  have idle : ∀ {t}, (s.th t).call = Option.none → ∀ o, (s.a o).th t = {} := fun {t} e o => stillAt (by rw [h.rest t e]) o
  cases hs with
  | act hok _ _ _ => exact pinv_act h hok
  | @actPanic t a _ =>
    exact h.move rfl rfl (by simp [outLabs]) (by simp [enteredBy]) t (s.th t) (fun u => same) (h.todo t) (.inl rfl) (h.rest t)
      (.inl ⟨rfl, fun _ hm => hm⟩) h.lock (by simp [sentBy]) (by simp [sentBy]) (by simp [sentBy]) (fun _ => hp)
      (fun o ho => (h.opened o (open_left ho) t).1)
  | @logPanic t now stack r ctx lvl fmt args hc hr hpr =>
    exact h.move rfl rfl (by simp [outLabs]) (by simp [enteredBy]) t (s.th t) (fun u => same) (h.todo t) (.inl rfl) (h.rest t)
      (.inl ⟨rfl, fun _ hm => hm⟩) h.lock (by simp [sentBy]) (by simp [sentBy]) (by simp [sentBy]) (fun _ => hp)
      (fun o ho => (h.opened o (open_left ho) t).1)
  | @log t now stack r ctx lvl fmt args ds hc hr hpr =>
    have hds := printf_outs h.world hpr
    refine h.move rfl rfl (by simp [outLabs]) (by simp [enteredBy]) t { call := some .log, todo := ds.map fun d => (d.out, .send d.evt) } (fun u => pset_th _ _ _ _)
      ?_ (.inr ⟨rfl, idle hc⟩) (by simp) (.inr ⟨idle hc, ?_, by simp, by simp⟩) ?_ ?_ ?_ ?_ (fun _ => hp) ?_
    · intro p hp'
      obtain ⟨d, hd, rfl⟩ := List.mem_map.mp hp'
      exact hds d hd
    · intro _ p hp'
      obtain ⟨d, hd, rfl⟩ := List.mem_map.mp hp'
      simp
    · intro u
      show s.lock = some u ↔ _
      rw [h.lock, pset_th]
      by_cases hu : u = t
      · subst hu; simp [hc]
      · simp [hu]
    · intro o _
      have e := h.rest t hc
      rw [toSend_log, e]
      simp [sentBy, toSend, sendsOf]
    · intro u o hu
      simp [sentBy, Ne.symm hu]
    · intro o ho
      have : ds.filter (fun d => d.out = o) = [] := by
        rw [List.filter_eq_nil_iff]
        intro d hd
        have := hds d hd
        simp only [decide_eq_true_eq]; omega
      simp [sentBy, this]
    · intro o _ p hp' _
      obtain ⟨d, hd, rfl⟩ := List.mem_map.mp hp'
      simp
  | @close t os hc hl hos =>
    refine h.move rfl rfl (by simp [outLabs]) (by simp [enteredBy]) t { call := some .close, todo := os.map fun o => (o, .close) } (fun u => rfl)
      ?_ (.inr ⟨rfl, idle hc⟩) (by simp) (.inr ⟨idle hc, by simp, by simp, ?_⟩) ?_ ?_ ?_ ?_ (fun _ => hp) ?_
    · intro p hp'
      obtain ⟨d, hd, rfl⟩ := List.mem_map.mp hp'
      exact mapped_outs h.world (hos.mem_iff.mp hd)
    · intro _ p hp'
      obtain ⟨d, hd, rfl⟩ := List.mem_map.mp hp'
      rfl
    · intro u
      rw [pset_th]
      show some t = some u ↔ _
      by_cases hu : u = t
      · subst hu; simp
      · have := h.lock u
        rw [hl] at this
        simp only [if_neg hu]
        constructor
        · intro e; simp at e; exact absurd e.symm hu
        · intro e; exact absurd (this.mpr e) (by simp)
    · intro o _
      have e := h.rest t hc
      rw [toSend_close, e]
      simp [sentBy, toSend, sendsOf]
    · intro u o hu; simp [sentBy]
    · intro o ho; simp [sentBy]
    · intro o ho p hp' e
      obtain ⟨d, hd, rfl⟩ := List.mem_map.mp hp'
      simp only at e
      subst e
      exact absurd hd (ho.1 t os (by simp))
  | @direct t o c hc ho =>
    refine h.move rfl rfl (by simp [outLabs]) (by simp [enteredBy]) t { call := some .direct, todo := [(o, c)] } (fun u => rfl)
      (by simpa using ho) (.inr ⟨rfl, idle hc⟩) (by simp) (.inr ⟨idle hc, by simp, ?_, by simp⟩) ?_ ?_ ?_ ?_ (fun _ => hp) ?_
    · intro _ ht p hp' e
      simp only [List.mem_singleton] at hp'
      subst hp'
      simp only at e
      subst e
      exact ht t o (by simp)
    · intro u
      show s.lock = some u ↔ _
      rw [h.lock, pset_th]
      by_cases hu : u = t
      · subst hu; simp [hc]
      · simp [hu]
    · intro p _
      have e := h.rest t hc
      rw [e, toSend_cons]
      cases c <;> by_cases hop : o = p <;> simp [sentBy, toSend, sendsOf, hop]
    · intro u p hu
      cases c <;> simp [sentBy, Ne.symm hu]
    · intro p hp'
      have : o ≠ p := by omega
      cases c <;> simp [sentBy, this]
    · intro p hop q hq e1 e2
      simp only [List.mem_singleton] at hq
      subst hq
      simp only at e1 e2
      subst e1; subst e2
      exact hop.2 t (by simp)
  | enter ht hc => exact pinv_enter h ht hc
  | out hc hst => exact pinv_out h hp hc hst
  | @leave t k o rest ht hth =>
    refine h.move rfl rfl (by simp [outLabs]) (by simp [enteredBy]) t { call := k, todo := rest } (fun u => rfl)
      (fun p hp' => h.todo t p (by rw [ht]; exact hp')) (.inr ⟨rfl, ?_⟩) ?_ (.inl ⟨by rw [ht], by rw [ht]; exact fun _ hm => hm⟩) ?_ ?_ ?_ ?_ (fun _ => hp) ?_
    · intro p
      by_cases hpo : p = o
      · subst hpo; exact hth
      · exact h.away t p (by rw [ht]; simp [Ne.symm hpo])
    · intro hk
      have := h.rest t (by rw [ht]; exact hk)
      rw [ht] at this; simp at this
    · intro u
      show s.lock = some u ↔ _
      rw [h.lock, pset_th]
      by_cases hu : u = t
      · subst hu; simp [ht]
      · simp [hu]
    · intro p _; rw [ht]; simp [sentBy]
    · intro u p hu; simp [sentBy]
    · intro p _; simp [sentBy]
    · intro p hop q hq
      exact (h.opened p (open_left hop) t).1 q (by rw [ht]; exact hq)
  | @send t k o e rest stack ht hc =>
    refine h.move rfl rfl (by simp [outLabs]) (by simp [enteredBy]) t { call := k, todo := rest } (fun u => rfl)
      (fun p hp' => h.todo t p (by rw [ht]; exact List.mem_cons_of_mem _ hp')) (.inl (by rw [ht])) ?_
      (.inl ⟨by rw [ht], by rw [ht]; exact fun _ hm => List.mem_cons_of_mem _ hm⟩) ?_ ?_ ?_ ?_ (fun _ => hp) ?_
    · intro hk
      have := h.rest t (by rw [ht]; exact hk)
      rw [ht] at this; simp at this
    · intro u
      show s.lock = some u ↔ _
      rw [h.lock, pset_th]
      by_cases hu : u = t
      · subst hu; simp [ht]
      · simp [hu]
    · intro p hpc
      have : o ≠ p := by rintro rfl; exact hpc hc
      rw [ht, toSend_cons]; simp [sentBy, this]
    · intro u p hu; simp [sentBy]
    · intro p _; simp [sentBy]
    · intro p hop q hq
      exact (h.opened p (open_left hop) t).1 q (by rw [ht]; exact List.mem_cons_of_mem _ hq)
  | @closed t k o rest ht hc =>
    refine h.move rfl rfl (by simp [outLabs]) (by simp [enteredBy]) t { call := k, todo := rest } (fun u => rfl)
      (fun p hp' => h.todo t p (by rw [ht]; exact List.mem_cons_of_mem _ hp')) (.inl (by rw [ht])) ?_
      (.inl ⟨by rw [ht], by rw [ht]; exact fun _ hm => List.mem_cons_of_mem _ hm⟩) ?_ ?_ ?_ ?_ (fun _ => hp) ?_
    · intro hk
      have := h.rest t (by rw [ht]; exact hk)
      rw [ht] at this; simp at this
    · intro u
      show s.lock = some u ↔ _
      rw [h.lock, pset_th]
      by_cases hu : u = t
      · subst hu; simp [ht]
      · simp [hu]
    · intro p hpc
      rw [ht, toSend_cons]; simp [sentBy, sendsOf]
    · intro u p hu; simp [sentBy]
    · intro p _; simp [sentBy]
    · intro p hop q hq
      exact (h.opened p (open_left hop) t).1 q (by rw [ht]; exact List.mem_cons_of_mem _ hq)
  | @ret t k ht =>
    refine h.move rfl rfl (by simp [outLabs]) (by simp [enteredBy]) t {} (fun u => rfl) (by simp) (.inl (by rw [ht])) (fun _ => rfl)
      (.inr ⟨stillAt (by rw [ht]), by simp, by simp, by simp⟩) ?_ ?_ ?_ ?_ (fun _ => hp) (by simp)
    · intro u
      rw [pset_th]
      show (if k = .close then Option.none else s.lock) = some u ↔ _
      have hu' := h.lock u
      have ht' := h.lock t
      rw [ht] at ht'
      by_cases hu : u = t
      · subst hu
        simp only [if_true]
        constructor
        · intro e
          split at e
          · simp at e
          · rename_i hk
            exact absurd (by simpa using ht'.mp e) hk
        · intro e; simp at e
      · simp only [if_neg hu]
        split
        · rename_i hk
          subst hk
          constructor
          · intro e; simp at e
          · intro e
            have := hu'.mpr e
            rw [ht'.mpr rfl] at this
            simp at this
            exact absurd this.symm hu
        · exact hu'
    · intro p _; rw [ht]; simp [sentBy, toSend, sendsOf]
    · intro u p hu; simp [sentBy]
    · intro p _; simp [sentBy]

theorem pinv_init (env : PEnv V) (up : Nat → Bool) : PInv env [] (newProgram up : PState V) where
  world := reach_inv (initWorld_reach up)
  proj := by intro o cfg _; exact .nil
  none := by intro o _; exact ⟨rfl, rfl, fun _ => rfl⟩
  todo := by intro t p hp; cases hp
  away := by intro t o _; rfl
  lone := by intro t o; exact .inr rfl
  inside := by intro t o hi; cases hi
  rest := by intro t _; rfl
  logs := by intro t hh; cases hh
  direct := by intro _ t hh; cases hh
  closes := by intro t hh; cases hh
  lock := by intro t; exact ⟨fun hh => (by cases hh), fun hh => (by cases hh)⟩
  order := by intro t o _; rfl
  fresh := by intro t o _; rfl
  sound := by intro _ o; rfl
  opened := by intro o _ t; exact ⟨(by intro p hp; cases hp), (by intro hm; cases hm)⟩

theorem pexec_inv {env : PEnv V} {up : Nat → Bool} {tr : List (PLab V)} {s : PState V} (h : PExec env (newProgram up) tr s) : PInv env tr s := by
  generalize h0 : newProgram up = s0 at h
  induction h with
  | nil => subst h0; exact pinv_init env up
  | snoc _ hs ih => subst h0; exact pinv_step ih hs

end Log4g
