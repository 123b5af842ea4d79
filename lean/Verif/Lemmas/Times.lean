import Verif.Spec.Times
import Verif.Lemmas.SystemOrder

/-! # Lemmas about the times of events -/

namespace Log4g
open Spec
open scoped List
variable {V : Type} {env : PEnv V} {up : Nat → Bool}

theorem returned_snoc {u : Nat} {tr : List (PLab V)} {l : PLab V} (h : Returned u tr) (hl : ¬ Begins u l) : Returned u (tr ++ [l]) := by
  intro x m y e hb
  rcases List.eq_nil_or_concat y with rfl | ⟨y', z, rfl⟩
  · have := List.append_inj' e rfl
    cases this.2
    exact absurd hb hl
  · have e' : tr ++ [l] = (x ++ m :: y') ++ [z] := by rw [e]; simp
    obtain ⟨e1, e2⟩ := List.append_inj' e' rfl
    cases e2
    rw [List.concat_eq_append]
    exact List.mem_append_left _ (h x m y' e1 hb)

theorem returned_ret {u : Nat} {tr : List (PLab V)} : Returned u (tr ++ [.ret u]) := by
  intro x m y e hb
  rcases List.eq_nil_or_concat y with rfl | ⟨y', z, rfl⟩
  · have := List.append_inj' e rfl
    cases this.2
    rcases hb with ⟨_, h⟩ | ⟨_, h⟩ | ⟨_, _, h⟩ <;> cases h
  · have e' : tr ++ [PLab.ret u] = (x ++ m :: y') ++ [z] := by rw [e]; simp
    obtain ⟨e1, e2⟩ := List.append_inj' e' rfl
    cases e2
    simp

/-- Either all calls of `u` have returned, or the last one it has begun has not. -/
def CallShape (u : Nat) (tr : List (PLab V)) (c : Option PCall) : Prop :=
  (c = none ∧ Returned u tr) ∨ (c ≠ none ∧ ∃ x l y, tr = x ++ l :: y ∧ Begins u l ∧ Returned u x ∧ (∀ m ∈ y, ¬ Begins u m) ∧ .ret u ∉ y)

theorem shape_snoc {u : Nat} {tr : List (PLab V)} {c : Option PCall} {l : PLab V} (h : CallShape u tr c) (hb : ¬ Begins u l) (hr : l ≠ .ret u) :
    CallShape u (tr ++ [l]) c := by
  rcases h with ⟨a, b⟩ | ⟨a, x, m, y, rfl, h1, h2, h3, h4⟩
  · exact .inl ⟨a, returned_snoc b hb⟩
  · refine .inr ⟨a, x, m, y ++ [l], by simp, h1, h2, fun z hz => ?_, fun hz => ?_⟩
    · rcases List.mem_append.mp hz with hz | hz
      · exact h3 z hz
      · rw [List.mem_singleton] at hz; exact hz ▸ hb
    · rcases List.mem_append.mp hz with hz | hz
      · exact h4 hz
      · rw [List.mem_singleton] at hz; exact hr hz.symm

theorem shape_begin {u : Nat} {tr : List (PLab V)} {c : PCall} {l : PLab V} (h : CallShape u tr none) (hb : Begins u l) : CallShape u (tr ++ [l]) (some c) := by
  rcases h with ⟨_, b⟩ | ⟨a, _⟩
  · exact .inr ⟨by simp, tr, l, [], rfl, hb, b, by simp, by simp⟩
  · exact absurd rfl a

theorem call_shape {tr : List (PLab V)} {s : PState V} (h : PExec env (newProgram up) tr s) (u : Nat) : CallShape u tr (s.th u).call := by
  induction h with
  | nil => exact .inl ⟨rfl, fun x l y e => by simp at e⟩
  | @snoc tr s l s' _ st ih =>
    have other : ∀ {v : Nat} {x : PThread V} {q : PState V} {l : PLab V}, q.th = s.th → u ≠ v → (¬ Begins u l) → l ≠ .ret u → CallShape u (tr ++ [l]) ((q.set v x).th u).call := by
      intro v x q l e hv hb hr
      have e2 : (q.set v x).th u = s.th u := by simp [PState.set, hv, e]
      rw [e2]
      exact shape_snoc ih hb hr
    have own : ∀ {v : Nat} {k : Option PCall} {x : PThread V} {q : PState V} {l : PLab V}, q.th = s.th → (s.th v).call = k → x.call = k → (¬ Begins u l) → l ≠ .ret u →
        CallShape u (tr ++ [l]) ((q.set v x).th u).call := by
      intro v k x q l e hk hx hb hr
      by_cases hv : u = v
      · subst hv
        have e2 : ((q.set u x).th u).call = (s.th u).call := by simp [PState.set, hk, hx]
        rw [e2]
        exact shape_snoc ih hb hr
      · exact other e hv hb hr
    cases st.2 with
    | act _ _ _ _ => exact shape_snoc ih (by simp [Begins]) (by simp)
    | actPanic _ => exact shape_snoc ih (by simp [Begins]) (by simp)
    | logPanic _ _ _ => exact shape_snoc ih (by simp [Begins]) (by simp)
    | @log v _ _ _ _ _ _ _ ds hn _ _ =>
      by_cases hv : u = v
      · subst hv
        have e2 : ∀ x : PThread V, ((s.set u x).th u) = x := fun x => by simp [PState.set]
        rw [e2]
        rw [hn] at ih
        exact shape_begin ih (.inl ⟨ds, rfl⟩)
      · exact other rfl hv (by simp [Begins, Ne.symm hv]) (by simp)
    | @close v os hn _ _ =>
      by_cases hv : u = v
      · subst hv
        simp only [PState.set, if_pos rfl]
        rw [hn] at ih
        exact shape_begin ih (.inr (.inl ⟨os, rfl⟩))
      · exact other rfl hv (by simp [Begins, Ne.symm hv]) (by simp)
    | @direct v o c hn _ =>
      by_cases hv : u = v
      · subst hv
        simp only [PState.set, if_pos rfl]
        rw [hn] at ih
        exact shape_begin ih (.inr (.inr ⟨o, c, rfl⟩))
      · exact other rfl hv (by simp [Begins, Ne.symm hv]) (by simp)
    | enter ht _ => exact own rfl (by rw [ht]) rfl (by simp [Begins]) (by simp)
    | out _ _ => exact shape_snoc ih (by simp [Begins]) (by simp)
    | leave ht _ => exact own rfl (by rw [ht]) rfl (by simp [Begins]) (by simp)
    | send _ ht _ => exact own rfl (by rw [ht]) rfl (by simp [Begins]) (by simp)
    | closed ht _ => exact own rfl (by rw [ht]) rfl (by simp [Begins]) (by simp)
    | @ret v k ht =>
      by_cases hv : u = v
      · subst hv
        simp only [PState.set, if_pos rfl]
        exact .inl ⟨rfl, returned_ret⟩
      · exact other rfl hv (by simp [Begins]) (by simp [Ne.symm hv])

/-- The times of the log calls are in order. -/
def Forward (tr : List (PLab V)) : Prop := (loggedTimes tr).Pairwise (· ≤ ·)

theorem loggedTimes_append (a b : List (PLab V)) : loggedTimes (a ++ b) = loggedTimes a ++ loggedTimes b := by simp [loggedTimes]

/-- The times of what was sent to one output are among those of all log calls. -/
theorem sent_times {t o : Nat} {tr : List (PLab V)} (hd : NoOwnSends o tr) : ((sentBy t o tr).map (·.time)) <+ loggedTimes tr := by
  induction tr with
  | nil => simp [sentBy, loggedTimes]
  | cons l tr ih =>
    have ih := ih fun u e hm => hd u e (List.mem_cons_of_mem _ hm)
    have e1 : sentBy t o (l :: tr) = sentBy t o [l] ++ sentBy t o tr := by simp [sentBy]
    have e2 : loggedTimes (l :: tr) = loggedTimes [l] ++ loggedTimes tr := by simp [loggedTimes]
    rw [e1, e2, List.map_append]
    refine List.Sublist.append ?_ ih
    cases l with
    | log u ds =>
      simp only [sentBy, loggedTimes, List.flatMap_cons, List.flatMap_nil, List.append_nil]
      split
      · rw [List.map_map]
        exact List.filter_sublist.map _
      · simp
    | direct u p c =>
      cases c with
      | send e =>
        by_cases h : u = t ∧ p = o
        · exact absurd (h.2 ▸ List.mem_cons_self) (hd u e)
        · simp [sentBy, h]
      | close => simp [sentBy]
    | _ => simp [sentBy]

theorem noOwn_left {o : Nat} {a b : List (PLab V)} (h : NoOwnSends o (a ++ b)) : NoOwnSends o a := fun t e hm => h t e (List.mem_append_left _ hm)
theorem noOwn_right {o : Nat} {a b : List (PLab V)} (h : NoOwnSends o (a ++ b)) : NoOwnSends o b := fun t e hm => h t e (List.mem_append_right _ hm)

theorem order_sent {o : Nat} {tr : List (PLab V)} {order : List (Nat × Event V)} (h : InTime o tr order) (t : Nat) : shareOf t order <+ sentBy t o tr := by
  obtain ⟨q1, q2, e, k⟩ := h [] tr rfl
  have h1 := (k t).1
  have h2 := (k t).2 fun x l y e => by simp at e
  have e0 : sentBy t o ([] : List (PLab V)) = [] := rfl
  rw [e0, List.sublist_nil] at h1
  rw [e, shareOf_append, h1]
  exact h2

/-- Each goroutine's events come in the order of their times. -/
theorem share_times {o : Nat} {tr : List (PLab V)} {order : List (Nat × Event V)} (h : InTime o tr order) (hf : Forward tr) (hd : NoOwnSends o tr) (t : Nat) :
    ((shareOf t order).map (·.time)).Pairwise (· ≤ ·) :=
  hf.sublist (((order_sent h t).map _).trans (sent_times hd))

/-- The events of one log call have the time it was made at. -/
theorem write_time (w : World) (now fuel : Nat) (stack : List Frame) (r : Nat) (ctx : Ctx V) (name : Str) (skip : Int) (lvl : Level) (fmt : Str) (args : List V) :
    ∀ d ∈ (w.write now fuel stack r ctx name skip lvl fmt args).deliveries, d.evt.time = now := by
  have disp : ∀ (l : Logger) (stack : List Frame) (ctx : Ctx V) (skip : Int), ∀ d ∈ (World.dispatch l stack now ctx name skip lvl fmt args).deliveries, d.evt.time = now := by
    intro l stack ctx skip d hd
    unfold World.dispatch at hd
    dsimp only at hd
    split at hd
    · simp [World.Outcome.deliveries] at hd
    · rename_i evt he
      simp only [World.Outcome.deliveries, List.mem_map] at hd
      obtain ⟨o, ho, rfl⟩ := hd
      dsimp only
      have key : ∀ (fr : List Frame) (evt : Event V) (b : Bool) (x : Event V), (getCallerInfo fr evt b).map (·.2) = some x → x.time = evt.time := by
        intro fr evt b x hx
        unfold getCallerInfo at hx
        grind
      split at he
      · exact key _ _ _ _ he
      · split at he
        · exact key _ _ _ _ he
        · cases he; rfl
  induction fuel generalizing stack r ctx skip with
  | zero => simp [World.write, World.Outcome.deliveries]
  | succ fuel ih =>
    unfold World.write
    split
    · simp [World.Outcome.deliveries]
    · split
      · simp [World.Outcome.deliveries]
      · split
        · split
          · exact ih _ _ _ _
          · exact disp _ _ _ _
        · exact disp _ _ _ _

theorem printf_time {w : World} {now : Nat} {stack : List Frame} {r : Nat} {ctx : Ctx V} {lvl : Level} {fmt : Str}
    {args : List V} {ds : List (World.Delivery V)} (h : w.printf now stack r ctx lvl fmt args = .sent ds) : ∀ d ∈ ds, d.evt.time = now := by
  have : ∀ d ∈ (w.printf now stack r ctx lvl fmt args).deliveries, d.evt.time = now := by
    unfold World.printf
    split
    · simp [World.Outcome.deliveries]
    · exact write_time _ _ _ _ _ _ _ _ _ _ _
  rw [h] at this
  exact this

/-- The clock goes forward, and so do the times of the log calls. -/
theorem clock_forward {clock : Nat → Nat} {tr : List (PLab V)} (h : ByClock env up clock tr) : Forward tr := by
  have key : ∀ b a, tr = a ++ b → (loggedTimes b).Pairwise (· ≤ ·) ∧ ∀ x ∈ loggedTimes b, clock a.length ≤ x := by
    intro b
    induction b with
    | nil => intro a _; simp [loggedTimes]
    | cons l b ih =>
      intro a e
      obtain ⟨h1, h2⟩ := ih (a ++ [l]) (by rw [e]; simp)
      have e2 : loggedTimes (l :: b) = loggedTimes [l] ++ loggedTimes b := by simp [loggedTimes]
      have hn : clock a.length ≤ clock (a ++ [l]).length := h.1 _ _ (by simp)
      have hl : ∀ x ∈ loggedTimes [l], x = clock a.length := by
        intro x hx
        cases l with
        | log t ds =>
          obtain ⟨s, stack, r, ctx, lvl, fmt, args, _, hp⟩ := h.2 a t ds b e
          simp only [loggedTimes, List.flatMap_cons, List.flatMap_nil, List.append_nil, List.mem_map] at hx
          obtain ⟨d, hd, rfl⟩ := hx
          exact printf_time hp d hd
        | _ => simp [loggedTimes] at hx
      rw [e2, List.pairwise_append]
      refine ⟨⟨?_, h1, fun x hx y hy => ?_⟩, fun x hx => ?_⟩
      · exact List.pairwise_of_forall_mem_list fun x hx y hy => by rw [hl x hx, hl y hy]; exact Nat.le_refl _
      · rw [hl x hx]; exact Nat.le_trans hn (h2 y hy)
      · rcases List.mem_append.mp hx with hx | hx
        · rw [hl x hx]; exact Nat.le_refl _
        · exact Nat.le_trans hn (h2 x hx)
  exact (key tr [] rfl).1

/-- A run whose log calls have events with the times of the clock. -/
theorem byClock_of {clock : Nat → Nat} {tr : List (PLab V)} {s : PState V} (h : PExec env (newProgram up) tr s) (hm : ∀ i j, i ≤ j → clock i ≤ clock j)
    (ht : ∀ a t ds b, tr = a ++ .log t ds :: b → ∃ d ∈ ds, d.evt.time = clock a.length) : ByClock env up clock tr := by
  refine ⟨hm, fun a t ds b e => ?_⟩
  obtain ⟨d, hd, hn⟩ := ht a t ds b e
  rw [show tr = (a ++ [.log t ds]) ++ b by rw [e]; simp] at h
  obtain ⟨_, h1, _⟩ := h.split
  obtain ⟨s1, h2, st⟩ := h1.last
  cases st.2 with
  | @log _ now stack r ctx lvl fmt args _ _ _ hp =>
    refine ⟨s1, stack, r, ctx, lvl, fmt, args, h2, ?_⟩
    rw [← hn, printf_time hp d hd]
    exact hp

/-- All events of one log call have one time. -/
theorem log_times {q s : PState V} {tr : List (PLab V)} (h : PExec env q tr s) : ∀ l ∈ tr, ∃ n, ∀ x ∈ loggedTimes [l], x = n := by
  induction h with
  | nil => simp
  | snoc _ st ih =>
    intro l hl
    rcases List.mem_append.mp hl with hl | hl
    · exact ih l hl
    rw [List.mem_singleton] at hl
    subst hl
    cases st.2 with
    | @log _ now _ _ _ _ _ _ _ _ _ hp =>
      refine ⟨now, fun x hx => ?_⟩
      simp only [loggedTimes, List.flatMap_cons, List.flatMap_nil, List.append_nil, List.mem_map] at hx
      obtain ⟨d, hd, rfl⟩ := hx
      exact printf_time hp d hd
    | _ => exact ⟨0, by simp [loggedTimes]⟩

/-- The moment the clock reached `n`. -/
theorem reach_time {tr : List (PLab V)} (hf : Forward tr) (hl : ∀ l ∈ tr, ∃ n, ∀ x ∈ loggedTimes [l], x = n) {n : Nat} (hn : ∃ x ∈ loggedTimes tr, n ≤ x) :
    ∃ a l b, tr = a ++ l :: b ∧ (∀ x ∈ loggedTimes a, x < n) ∧ (∃ x ∈ loggedTimes [l], n ≤ x) ∧ ∀ x ∈ loggedTimes (l :: b), n ≤ x := by
  induction tr with
  | nil => obtain ⟨x, hx, _⟩ := hn; simp [loggedTimes] at hx
  | cons l tr ih =>
    have e2 : ∀ tr, loggedTimes (l :: tr) = loggedTimes [l] ++ loggedTimes tr := fun tr => by simp [loggedTimes]
    unfold Forward at hf
    rw [e2, List.pairwise_append] at hf
    by_cases hc : ∀ x ∈ loggedTimes [l], x < n
    · have hn' : ∃ x ∈ loggedTimes tr, n ≤ x := by
        obtain ⟨x, hx, h⟩ := hn
        rw [e2] at hx
        rcases List.mem_append.mp hx with hx | hx
        · exact absurd (hc x hx) (Nat.not_lt_of_le h)
        · exact ⟨x, hx, h⟩
      obtain ⟨a, m, b, e, h1, h2⟩ := ih hf.2.1 (fun m hm => hl m (List.mem_cons_of_mem _ hm)) hn'
      refine ⟨l :: a, m, b, by rw [e]; rfl, ?_, h2⟩
      intro x hx
      rw [e2] at hx
      rcases List.mem_append.mp hx with hx | hx
      · exact hc x hx
      · exact h1 x hx
    · have hc : ∃ x, x ∈ loggedTimes [l] ∧ n ≤ x := by
        refine Classical.byContradiction fun hx => hc fun x hx' => ?_
        exact Nat.lt_of_not_le fun hn => hx ⟨x, hx', hn⟩
      obtain ⟨x, hx, hn⟩ := hc
      obtain ⟨m, hm⟩ := hl l List.mem_cons_self
      refine ⟨[], l, tr, rfl, by simp [loggedTimes], ⟨x, hx, hn⟩, fun y hy => ?_⟩
      rw [e2] at hy
      rcases List.mem_append.mp hy with hy | hy
      · rw [hm y hy, ← hm x hx]; exact hn
      · exact Nat.le_trans hn (hf.2.2 x hx y hy)

theorem mem_shareOf {t : Nat} {e : Event V} {q : List (Nat × Event V)} : e ∈ shareOf t q ↔ (t, e) ∈ q := by
  simp only [shareOf, List.mem_map, List.mem_filter, decide_eq_true_eq]
  constructor
  · rintro ⟨⟨a, b⟩, ⟨h, rfl⟩, rfl⟩
    exact h
  · intro h
    exact ⟨(t, e), ⟨h, rfl⟩, rfl⟩

/-- At a moment when all times were before that of an event, what comes after it in the order comes after that moment. -/
theorem later_part {o t u : Nat} {tr a b : List (PLab V)} {order p r : List (Nat × Event V)} {e e' : Event V} (ht : InTime o tr order)
    (hd : NoOwnSends o tr) (he : order = p ++ (t, e) :: r) (hm : (u, e') ∈ r) (hs : tr = a ++ b) (ha : ∀ x ∈ loggedTimes a, x < e.time) (hr : Returned u a) :
    e' ∈ sentBy u o b := by
  obtain ⟨q1, q2, hq, hk⟩ := ht a b hs
  have h1 : (t, e) ∉ q1 := by
    intro hc
    have h2 := (hk t).1.mem (mem_shareOf.mpr hc)
    rw [hs] at hd
    exact absurd (ha _ ((sent_times (noOwn_left hd)).mem (List.mem_map_of_mem h2))) (Nat.lt_irrefl _)
  rw [he] at hq
  refine ((hk u).2 hr).mem (mem_shareOf.mpr ?_)
  rcases List.append_eq_append_iff.mp hq with ⟨c, rfl, h2⟩ | ⟨c, rfl, h2⟩
  · cases c with
    | nil => rw [List.nil_append] at h2; rw [← h2]; exact List.mem_cons_of_mem _ hm
    | cons x c =>
      rw [List.cons_append] at h2
      cases (List.cons.inj h2).1
      exact absurd (by simp) h1
  · rw [h2]
    exact List.mem_append_right _ (List.mem_cons_of_mem _ hm)

/-- An event with an earlier time behind one with a later: its log call was running when the clock reached the later time. -/
theorem overlap_time {o t u : Nat} {tr : List (PLab V)} {s : PState V} {order p r : List (Nat × Event V)} {e e' : Event V} (h : PExec env (newProgram up) tr s)
    (ht : InTime o tr order) (hf : Forward tr) (hd : NoOwnSends o tr) (he : order = p ++ (t, e) :: r) (hm : (u, e') ∈ r) (hlt : e'.time < e.time) :
    ∃ a v ds b, tr = a ++ .log v ds :: b ∧ (∀ x ∈ loggedTimes a, x < e.time) ∧ (∃ d ∈ ds, e.time ≤ d.evt.time) ∧ StillLogging u o e' a := by
  have hx : ∃ x ∈ loggedTimes tr, e.time ≤ x := by
    refine ⟨e.time, (sent_times (t := t) hd).mem (List.mem_map_of_mem ((order_sent ht t).mem (mem_shareOf.mpr ?_))), Nat.le_refl _⟩
    rw [he]; simp
  obtain ⟨a, l, b, hs, ha, hl0, hb⟩ := reach_time hf (log_times h) hx
  obtain ⟨v, ds, rfl, hl⟩ : ∃ v ds, l = .log v ds ∧ ∃ d ∈ ds, e.time ≤ d.evt.time := by
    obtain ⟨x, hx, hn⟩ := hl0
    cases l with
    | log v ds =>
      simp only [loggedTimes, List.flatMap_cons, List.flatMap_nil, List.append_nil, List.mem_map] at hx
      obtain ⟨d, hd, rfl⟩ := hx
      exact ⟨v, ds, rfl, d, hd, hn⟩
    | _ => simp [loggedTimes] at hx
  refine ⟨a, v, ds, b, hs, ha, hl, ?_⟩
  generalize hb' : PLab.log v ds :: b = b at hb hs
  have hdb : NoOwnSends o b := by rw [hs] at hd; exact noOwn_right hd
  have notb : e' ∉ sentBy u o b := fun hc =>
    absurd (hb _ ((sent_times hdb).mem (List.mem_map_of_mem hc))) (Nat.not_le_of_lt hlt)
  rw [hs] at h
  obtain ⟨s1, h1, _⟩ := h.split
  rcases call_shape h1 u with ⟨_, hr⟩ | ⟨_, x, l, y, rfl, hbg, hr, hy, hret⟩
  · exact absurd (later_part ht hd he hm hs ha hr) notb
  · have hx : ∀ z ∈ loggedTimes x, z < e.time := fun z hz => ha z (by rw [loggedTimes_append]; exact List.mem_append_left _ hz)
    have k := later_part ht hd he hm (a := x) (b := l :: y ++ b) (by rw [hs]; simp) hx hr
    have ks : sentBy u o (l :: y ++ b) = sentBy u o [l] ++ sentBy u o y ++ sentBy u o b := by simp [sentBy]
    have ky : sentBy u o y = [] := by
      unfold sentBy
      rw [List.flatMap_eq_nil_iff]
      intro m hmy
      have := hy m hmy
      cases m with
      | log v ds => simp only [ite_eq_right_iff]; rintro rfl; exact absurd (.inl ⟨ds, rfl⟩) this
      | direct v p c =>
        cases c with
        | send e => simp only [ite_eq_right_iff]; rintro ⟨rfl, _⟩; exact absurd (.inr (.inr ⟨p, _, rfl⟩)) this
        | close => rfl
      | _ => rfl
    rw [ks, ky, List.append_nil] at k
    have k := (List.mem_append.mp k).resolve_right notb
    rcases hbg with ⟨ds, rfl⟩ | ⟨os, rfl⟩ | ⟨p', c, rfl⟩
    · refine ⟨x, ds, y, rfl, ?_, hret⟩
      simp only [sentBy, List.flatMap_cons, List.flatMap_nil, List.append_nil, if_pos, List.mem_map, List.mem_filter, decide_eq_true_eq] at k
      obtain ⟨⟨_, _⟩, ⟨hk, rfl⟩, rfl⟩ := k
      exact hk
    · simp [sentBy] at k
    · cases c with
      | close => simp [sentBy] at k
      | send e0 =>
        by_cases hp : p' = o
        · subst hp
          exact absurd (by rw [hs]; simp) (hd u e0)
        · simp [sentBy, hp] at k

/-- With no two log calls at a time, all times are in order. -/
theorem serial_times {o : Nat} {tr : List (PLab V)} {s : PState V} {order : List (Nat × Event V)} (h : PExec env (newProgram up) tr s)
    (ht : InTime o tr order) (hf : Forward tr) (hd : NoOwnSends o tr) (hs : Serial tr) : (order.map (·.2.time)).Pairwise (· ≤ ·) := by
  have key : ∀ p r, order = p ++ r → (r.map (·.2.time)).Pairwise (· ≤ ·) := by
    intro p r
    induction r generalizing p with
    | nil => simp
    | cons x r ih =>
      intro e
      rw [List.map_cons, List.pairwise_cons]
      refine ⟨fun n hn => ?_, ih (p ++ [x]) (by rw [e]; simp)⟩
      obtain ⟨⟨u, e'⟩, hm, rfl⟩ := List.mem_map.mp hn
      refine Nat.le_of_not_lt fun hlt => ?_
      obtain ⟨a, v, ds, b, ea, _, _, ⟨y, ds', z, ez, _, hz⟩⟩ := overlap_time (t := x.1) (e := x.2) h ht hf hd e hm hlt
      exact hz (hs a v ds b ea u y _ z ez (.inl ⟨ds', rfl⟩))
  exact key [] order rfl

theorem on_time {o : Nat} {tr : List (PLab V)} {s : PState V} {order : List (Nat × Event V)} (h : PExec env (newProgram up) tr s)
    (ht : InTime o tr order) {clock : Nat → Nat} (hk : ByClock env up clock tr) (hd : NoOwnSends o tr) : OnTime o tr order :=
  have hf := clock_forward hk
  ⟨share_times ht hf hd, fun _ _ _ _ _ _ he hm hlt => overlap_time h ht hf hd he hm hlt, serial_times h ht hf hd⟩

end Log4g
