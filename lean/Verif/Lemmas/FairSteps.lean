import Verif.Lemmas.Fair

/-! # Programs that go on for ever: single steps -/

namespace Log4g
open Spec Strconv
open scoped List
variable {V : Type} {env : PEnv V} {host : Host} {up : Nat → Bool} {v0 : Nat → Volume}

/-- What the program can do, the machine can, if nobody has to wait for a write. -/
theorem enabled_step {tr : List (MLab V)} {m : Machine V} (h : MExec env host (newMachine up v0) tr m) {l : PLab V} {p : PState V} (hs : PStep env m.p l p) (hl : m.lets l)
    (hj : ∀ t o c, l = .plain t o c → (m.wr o).job = none) : ∃ x m', progOf [x] = [l] ∧ MStep env host m x m' := by
  have inv := mexec_inv h
  by_cases hg : ∀ o c, p.w.rollOf env.tc o = some c → p.given env o = m.p.given env o
  · exact ⟨.prog l, _, rfl, .prog hs hl hg⟩
  · have : ∃ o c, p.w.rollOf env.tc o = some c ∧ p.given env o ≠ m.p.given env o := by
      apply Classical.byContradiction
      intro hn
      exact hg fun o c ho => Classical.byContradiction fun hne => hn ⟨o, c, ho, hne⟩
    obtain ⟨o, c, ho, hne⟩ := this
    rcases given_le inv.prog hs o with k | ⟨bs, k⟩
    · exact absurd k hne
    · refine ⟨.write l _ o bs, _, rfl, .write hs hl ho k (fun q c hq _ => given_one inv.prog hs hne hq) ?_⟩
      rcases given_step inv.prog hs o with k | ⟨t, e, stack, rfl, _⟩ | ⟨a, cfg, bs, rfl, ha, _⟩
      · exact absurd k hne
      · exact hj _ _ _ rfl
      · rcases ha with rfl | ⟨x, rfl⟩
        · exact hl.2
        · exact hl.2

/-- The steps of others leave a goroutine alone, in an output. -/
theorem other_thread_act {cfg : ACfg V} {s s' : AState V} {l : ALab V} (h : AAct cfg s l s') {u : Nat} (hu : stepOf l ≠ some u) : s'.th u = s.th u := by
  have set : ∀ {s1 : AState V} {t : Nat} {x : Thread V}, (some t : Option Nat) ≠ some u → s1.th = s.th → (s1.set t x).th u = s.th u := by
    intro s1 t x h1 h2
    rw [set_th, if_neg (by rintro rfl; exact h1 rfl), h2]
  cases h with
  | sendStart _ _ => exact set hu rfl
  | sendSkip _ _ => exact set hu rfl
  | sendQueue _ _ _ => exact set hu rfl
  | closeStart _ _ => exact set hu rfl
  | closeSkip _ _ => exact set hu rfl
  | closeRequest _ _ _ => exact set hu rfl
  | closeWait _ _ => exact set hu rfl
  | closeStore _ => exact set hu rfl
  | closeChan _ _ => exact set hu rfl
  | takeEvent _ _ _ =>
    obtain ⟨_, _, _, _, _, k3, _⟩ := handle_same cfg _ ({ s with chan := _ } : AState V) _
    rw [k3]
  | _ => rfl

theorem goroutine_out (o : Nat) (l : ALab V) : (PLab.out o l).goroutine = stepOf l := by cases l <;> rfl

theorem other_thread {s s' : PState V} {l : PLab V} (h : PAct env s l s') {u : Nat} (hu : l.goroutine ≠ some u) (o : Nat) : (s'.a o).th u = (s.a o).th u := by
  cases h with
  | @enter t k p c rest cfg ht hc =>
    show ((s.setOut p ((s.a p).push t c)).a o).th u = _
    rw [setOut_a]
    split
    · rename_i e; subst e
      exact push_other _ _ (by rintro rfl; exact hu rfl)
    · rfl
  | @out p l x cfg hc hx =>
    show ((s.setOut p x).a o).th u = _
    rw [setOut_a]
    split
    · rename_i e; subst e
      exact other_thread_act hx.2 (by rw [← goroutine_out o]; exact hu)
    · rfl
  | _ => rfl

/-- What a step does to the queue of an output. -/
theorem queue_act {cfg : ACfg V} {s s' : AState V} {l : ALab V} (h : AAct cfg s l s') (hp : s'.panicked = false) :
    (∃ y, s'.chan = s.chan ++ y) ∧ (∀ e, l ≠ .took e) ∨ ∃ e, l = .took e ∧ (s.chan = e :: s'.chan ∨ s.chan = [] ∧ s'.chan = []) ∧ (e = none → s'.worker = .stopped) := by
  cases h with
  | sendQueue _ _ _ => exact .inl ⟨⟨_, rfl⟩, by simp⟩
  | closeRequest _ _ _ => exact .inl ⟨⟨_, rfl⟩, by simp⟩
  | @takeEvent e rest f _ hc _ =>
    obtain ⟨k1, _⟩ := handle_same cfg f ({ s with chan := rest } : AState V) e
    exact .inr ⟨_, rfl, .inl (by rw [k1]; exact hc), by simp⟩
  | takeIgnored _ hc _ _ => exact .inr ⟨_, rfl, .inl hc, by simp⟩
  | takePanic _ _ _ _ => cases hp
  | takeNil _ hc => exact .inr ⟨_, rfl, .inl hc, fun _ => rfl⟩
  | takeClosed _ hc _ => exact .inr ⟨_, rfl, .inr ⟨hc, hc⟩, fun _ => rfl⟩
  | _ => exact .inl ⟨⟨[], by simp [AState.set, AState.flush]⟩, by simp⟩

theorem queue_step {s s' : PState V} {l : PLab V} (h : PStep env s l s') (hp : s'.panicked = false) (o : Nat) :
    (∃ y, (s'.a o).chan = (s.a o).chan ++ y) ∧ (∀ e, l ≠ .out o (.took e)) ∨
    ∃ e, l = .out o (.took e) ∧ ((s.a o).chan = e :: (s'.a o).chan ∨ (s.a o).chan = [] ∧ (s'.a o).chan = []) ∧ (e = none → (s'.a o).worker = .stopped) := by
  have same : ∀ {x y : List (Option (Event V))}, y = x → ∃ z, y = x ++ z := fun h => ⟨[], by simp [h]⟩
  cases h.2 with
  | @enter t k p c rest cfg ht hc =>
    refine .inl ⟨same ?_, by simp⟩
    show ((s.setOut p ((s.a p).push t c)).a o).chan = _
    rw [setOut_a]
    split
    · rename_i e; subst e; rfl
    · rfl
  | @out p l x cfg hc hx =>
    show (∃ y, ((s.setOut p x).a o).chan = _) ∧ _ ∨ ∃ e, _ ∧ (_ = e :: ((s.setOut p x).a o).chan ∨ _ ∧ ((s.setOut p x).a o).chan = []) ∧ (_ → ((s.setOut p x).a o).worker = _)
    rw [setOut_a]
    by_cases e : o = p
    · subst e
      rw [if_pos rfl]
      rcases queue_act hx.2 hp with ⟨k1, k2⟩ | ⟨e, rfl, k⟩
      · exact .inl ⟨k1, fun e he => k2 e (by cases he; rfl)⟩
      · exact .inr ⟨e, rfl, k⟩
    · rw [if_neg e]
      refine .inl ⟨same rfl, fun y hy => ?_⟩
      cases hy; exact e rfl
  | _ => exact .inl ⟨same rfl, by simp⟩

theorem begun_step {s s' : PState V} {o : Nat} (h : PStep env s (.out o .begin) s') : (s'.a o).worker = .running := by
  cases h.2 with
  | @out _ _ x cfg hc hx =>
    show ((s.setOut o x).a o).worker = _
    rw [setOut_a, if_pos rfl]
    cases hx.2 with
    | begin _ => rfl

/-! ## Calls get on -/

/-- How far a goroutine in a call of an output is from its end. -/
def Thread.left (x : Thread V) : Nat :=
  match x.pc with
  | .idle => 1 + 6 * x.todo.length
  | .sending _ | .requesting => 6
  | .waiting => 5
  | .storing => 4
  | .closing => 3

/-- How far a goroutine in a call is from its end. -/
def PState.left (s : PState V) (t : Nat) : Nat :=
  8 * (s.th t).todo.length + match (s.th t).inside with | none => 0 | some o => ((s.a o).th t).left

/-- The outputs a goroutine in a call is using or will use. -/
def PState.uses (s : PState V) (t o : Nat) : Prop := (s.th t).inside = some o ∨ ∃ c, (o, c) ∈ (s.th t).todo

theorem thread_act {cfg : ACfg V} {s s' : AState V} {l : ALab V} (h : AAct cfg s l s') (hp : s'.panicked = false) {t : Nat} (ht : stepOf l = some t) (hl : Lone (s.th t)) :
    (s'.th t).left < (s.th t).left ∧ s.th t ≠ {} := by
  have go : ∀ {s1 : AState V} {x y : Thread V}, s.th t = x → Lone x → (Lone x → y.left < x.left) → x ≠ {} → ((s1.set t y).th t).left < (s.th t).left ∧ s.th t ≠ {} := by
    intro s1 x y h1 h2 h3 h4
    rw [set_th, if_pos rfl, h1]; exact ⟨h3 h2, h4⟩
  have one : ∀ {p : Pc V} {c : ACall V} {cs : List (ACall V)}, Lone ({ pc := p, todo := c :: cs } : Thread V) → cs = [] := by
    rintro p c cs (⟨_, c', h⟩ | h)
    · simp at h; exact h.2
    · simp at h
  have zero : ∀ {p : Pc V} {cs : List (ACall V)}, p ≠ .idle → Lone ({ pc := p, todo := cs } : Thread V) → cs = [] := by
    rintro p cs hp (⟨h, _⟩ | h)
    · exact absurd h hp
    · exact h
  cases h <;> cases ht <;> first | cases hp | skip
  case sendStart e cs h1 h2 => exact go h2 (h2 ▸ hl) (fun h => by rw [one h]; simp [Thread.left]) (by simp)
  case sendSkip e cs h1 h2 => exact go h2 (h2 ▸ hl) (fun h => by rw [one h]; simp [Thread.left]) (by simp)
  case sendQueue e cs h1 h2 h3 => exact go h3 (h3 ▸ hl) (fun h => by rw [zero (by simp) h]; simp [Thread.left]) (by simp)
  case closeStart cs h1 h2 => exact go h2 (h2 ▸ hl) (fun h => by rw [one h]; simp [Thread.left]) (by simp)
  case closeSkip cs h1 h2 => exact go h2 (h2 ▸ hl) (fun h => by rw [one h]; simp [Thread.left]) (by simp)
  case closeRequest cs h1 h2 h3 => exact go h3 (h3 ▸ hl) (fun h => by rw [zero (by simp) h]; simp [Thread.left]) (by simp)
  case closeWait cs h1 h2 => exact go h2 (h2 ▸ hl) (fun h => by rw [zero (by simp) h]; simp [Thread.left]) (by simp)
  case closeStore cs h1 => exact go h1 (h1 ▸ hl) (fun h => by rw [zero (by simp) h]; simp [Thread.left]) (by simp)
  case closeChan cs h1 h2 => exact go h2 (h2 ▸ hl) (fun h => by rw [zero (by simp) h]; simp [Thread.left]) (by simp)

/-- Every step of a goroutine in a call gets it nearer to the end. -/
theorem gets_on {tr : List (PLab V)} {s s' : PState V} {l : PLab V} (inv : PInv env tr s) (h : PStep env s l s') (hp : s'.panicked = false) {t : Nat} (ht : l.goroutine = some t)
    (hc : (s.th t).call ≠ none) : l = .ret t ∨ (s'.th t).call = (s.th t).call ∧ s'.left t < s.left t ∧ ∀ o, s'.uses t o → s.uses t o := by
  cases h.2 with
  | act _ _ _ _ => cases ht
  | actPanic _ => cases hp
  | logPanic _ _ _ => cases hp
  | log k _ _ => cases ht; exact absurd k hc
  | close k _ _ => cases ht; exact absurd k hc
  | direct k _ => cases ht; exact absurd k hc
  | ret _ => cases ht; exact .inl rfl
  | @enter _ k o c rest cfg e hcfg =>
    cases ht
    right
    have ha : (s.a o).th t = {} := inv.away t o (by rw [e]; simp)
    refine ⟨?_, ?_, ?_⟩
    · rw [pset_th, if_pos rfl, e]
    · have e2 : (((s.setOut o ((s.a o).push t c)).a o).th t) = { pc := .idle, todo := [c] } := by rw [setOut_a, if_pos rfl, push_self _ _ _ ha]
      unfold PState.left
      rw [pset_th, if_pos rfl, e]
      show 8 * rest.length + (((s.setOut o ((s.a o).push t c)).a o).th t).left < _
      rw [e2]
      simp [Thread.left]; omega
    · intro q hq
      unfold PState.uses at hq ⊢
      rw [pset_th, if_pos rfl] at hq
      rw [e]
      rcases hq with hq | ⟨c', hq⟩
      · cases hq; exact .inr ⟨c, by simp⟩
      · exact .inr ⟨c', by simp [hq]⟩
  | @out o l x cfg hcfg hx =>
    rw [goroutine_out] at ht
    right
    have hin : (s.th t).inside = some o := by
      apply Classical.byContradiction
      intro hne
      exact (thread_act hx.2 hp ht (inv.lone t o)).2 (inv.away t o hne)
    refine ⟨rfl, ?_, fun _ => id⟩
    unfold PState.left
    show 8 * (s.th t).todo.length + (match (s.th t).inside with | none => 0 | some q => (((s.setOut o x).a q).th t).left) < _
    rw [hin]
    show 8 * (s.th t).todo.length + (((s.setOut o x).a o).th t).left < _
    rw [setOut_a, if_pos rfl]
    exact Nat.add_lt_add_left (thread_act hx.2 hp ht (inv.lone t o)).1 _
  | @leave _ k o rest e ha =>
    cases ht
    right
    refine ⟨by rw [pset_th, if_pos rfl, e], ?_, ?_⟩
    · unfold PState.left
      rw [pset_th, if_pos rfl, e]
      show _ < 8 * rest.length + ((s.a o).th t).left
      rw [ha]
      simp [Thread.left]
    · intro q hq
      unfold PState.uses at hq ⊢
      rw [pset_th, if_pos rfl] at hq
      rw [e]
      rcases hq with hq | hq
      · cases hq
      · exact .inr hq
  | @send _ k o ev rest stack e hcfg =>
    cases ht
    right
    refine ⟨by rw [pset_th, if_pos rfl, e], ?_, ?_⟩
    · unfold PState.left
      rw [pset_th, if_pos rfl, e]
      simp
    · intro q hq
      unfold PState.uses at hq ⊢
      rw [pset_th, if_pos rfl] at hq
      rw [e]
      rcases hq with hq | ⟨c', hq⟩
      · cases hq
      · exact .inr ⟨c', by simp [hq]⟩
  | @closed _ k o rest e hcfg =>
    cases ht
    right
    refine ⟨by rw [pset_th, if_pos rfl, e], ?_, ?_⟩
    · unfold PState.left
      rw [pset_th, if_pos rfl, e]
      simp
    · intro q hq
      unfold PState.uses at hq ⊢
      rw [pset_th, if_pos rfl] at hq
      rw [e]
      rcases hq with hq | ⟨c', hq⟩
      · cases hq
      · exact .inr ⟨c', by simp [hq]⟩

/-- A goroutine stays in its call until it returns. -/
theorem call_kept {s s' : PState V} {l : PLab V} {t : Nat} {k : PCall} (h : PStep env s l s') (hc : (s.th t).call = some k) (hl : l ≠ .ret t) : (s'.th t).call = some k := by
  by_cases hg : l.goroutine = some t
  · cases h.2
    case out => exact hc
    all_goals cases hg
    all_goals first
      | exact absurd rfl hl
      | exact hc
      | (simp_all [PState.set]; done)
  · rw [other_goroutine h.2 hg]; exact hc

end Log4g
