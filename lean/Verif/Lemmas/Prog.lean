import Verif.Model.Disk

/-! # Reasoning about programs -/

namespace Log4g
variable {α β : Type}

/-- Along every run of `p` from `d` after `tr`, `I` holds after every call and `Q` at the end, as long as what has
been seen is `G`. -/
def wp (umask : Nat) (G : STrace → Prop) (I : STrace → Disk → Prop) : Prog α → (α → STrace → Disk → Prop) → STrace → Disk → Prop
  | .ret a, Q, tr, d => Q a tr d
  | .call o k, Q, tr, d => ∀ r d', SysStep umask d o r d' → G (tr ++ [⟨o, r⟩]) →
      I (tr ++ [⟨o, r⟩]) d' ∧ wp umask G I (k r) Q (tr ++ [⟨o, r⟩]) d'

variable {umask : Nat} {G : STrace → Prop} {I : STrace → Disk → Prop}

theorem wp_bind (p : Prog α) (f : α → Prog β) (Q : β → STrace → Disk → Prop) (tr : STrace) (d : Disk) :
    wp umask G I (p >>= f) Q tr d ↔ wp umask G I p (fun a => wp umask G I (f a) Q) tr d := by
  show wp umask G I (p.bind f) Q tr d ↔ _
  induction p generalizing tr d with
  | ret a => rfl
  | call o k ih =>
    simp only [Prog.bind, wp]
    constructor <;> intro h r d' hs hg
    · exact ⟨(h r d' hs hg).1, (ih r _ _).mp (h r d' hs hg).2⟩
    · exact ⟨(h r d' hs hg).1, (ih r _ _).mpr (h r d' hs hg).2⟩

theorem wp_pure (a : α) (Q : α → STrace → Disk → Prop) (tr : STrace) (d : Disk) : wp umask G I (pure a) Q tr d ↔ Q a tr d := Iff.rfl

theorem wp_sys (o : Sys) (Q : o.Resp → STrace → Disk → Prop) (tr : STrace) (d : Disk) :
    wp umask G I (sys o) Q tr d ↔ ∀ r d', SysStep umask d o r d' → G (tr ++ [⟨o, r⟩]) →
      I (tr ++ [⟨o, r⟩]) d' ∧ Q r (tr ++ [⟨o, r⟩]) d' := Iff.rfl

theorem wp_mono (p : Prog α) {Q Q' : α → STrace → Disk → Prop} (hq : ∀ a tr d, Q a tr d → Q' a tr d) {tr : STrace} {d : Disk}
    (h : wp umask G I p Q tr d) : wp umask G I p Q' tr d := by
  induction p generalizing tr d with
  | ret a => exact hq _ _ _ h
  | call o k ih => exact fun r d' hs hg => ⟨(h r d' hs hg).1, ih r (h r d' hs hg).2⟩

theorem wp_runs {p : Prog α} {Q : α → STrace → Disk → Prop} {tr0 : STrace} {d : Disk} (h : wp umask G I p Q tr0 d)
    {tr : STrace} {a : α} {d' : Disk} (hr : Runs umask p d tr a d') (hG : ∀ tr', tr' <+: tr → G (tr0 ++ tr')) : Q a (tr0 ++ tr) d' := by
  induction hr generalizing tr0 with
  | ret => rw [List.append_nil]; exact h
  | @call o k d r d1 tr a d2 hs _ ih =>
    have := h r d1 hs (hG [_] (by simp))
    have := ih this.2 (fun tr' ht => by
      have := hG (⟨o, r⟩ :: tr') (by simpa using ht)
      simpa using this)
    simpa using this

theorem wp_stops {p : Prog α} {Q : α → STrace → Disk → Prop} {tr0 : STrace} {d : Disk} (h : wp umask G I p Q tr0 d) (hi : I tr0 d)
    {tr : STrace} {d' : Disk} (hr : Stops umask p d tr d') (hG : ∀ tr', tr' <+: tr → G (tr0 ++ tr')) : I (tr0 ++ tr) d' := by
  induction hr generalizing tr0 with
  | here => simpa using hi
  | @call o k d r d1 tr d2 hs _ ih =>
    have := h r d1 hs (hG [_] (by simp))
    have := ih this.2 this.1 (fun tr' ht => by
      have := hG (⟨o, r⟩ :: tr') (by simpa using ht)
      simpa using this)
    simpa using this

/-- `I` can be replaced by something weaker. -/
theorem wp_weaken {I' : STrace → Disk → Prop} (hI : ∀ tr d, I tr d → I' tr d) (p : Prog α) {Q : α → STrace → Disk → Prop} {tr : STrace} {d : Disk}
    (h : wp umask G I p Q tr d) : wp umask G I' p Q tr d := by
  induction p generalizing tr d with
  | ret a => exact h
  | call o k ih => exact fun r d' hs hg => ⟨hI _ _ (h r d' hs hg).1, ih r (h r d' hs hg).2⟩

/-- A run is the longest of its prefixes. -/
theorem Runs.stops {p : Prog α} {d : Disk} {tr : STrace} {a : α} {d' : Disk} (h : Runs umask p d tr a d') : Stops umask p d tr d' := by
  induction h with
  | ret => exact .here
  | call hs _ ih => exact .call hs ih

theorem Runs.bind {p : Prog α} {f : α → Prog β} {d d' d'' : Disk} {tr tr' : STrace} {a : α} {b : β}
    (h : Runs umask p d tr a d') (h' : Runs umask (f a) d' tr' b d'') : Runs umask (p >>= f) d (tr ++ tr') b d'' := by
  show Runs umask (p.bind f) d (tr ++ tr') b d''
  induction h with
  | ret => exact h'
  | call hs _ ih => exact .call hs (ih h')

theorem runs_bind {p : Prog α} {f : α → Prog β} {d d'' : Disk} {tr : STrace} {b : β} (h : Runs umask (p >>= f) d tr b d'') :
    ∃ tr1 a d' tr2, Runs umask p d tr1 a d' ∧ Runs umask (f a) d' tr2 b d'' ∧ tr = tr1 ++ tr2 := by
  change Runs umask (p.bind f) d tr b d'' at h
  induction p generalizing d tr with
  | ret a => exact ⟨[], a, d, tr, .ret, h, rfl⟩
  | call o k ih =>
    cases h with
    | @call _ _ _ r d1 tr _ _ hs h =>
      obtain ⟨tr1, a, d', tr2, h1, h2, rfl⟩ := ih r h
      exact ⟨_, a, d', tr2, .call hs h1, h2, rfl⟩

theorem stops_bind {p : Prog α} {f : α → Prog β} {d d'' : Disk} {tr : STrace} (h : Stops umask (p >>= f) d tr d'') :
    Stops umask p d tr d'' ∨ ∃ tr1 a d' tr2, Runs umask p d tr1 a d' ∧ Stops umask (f a) d' tr2 d'' ∧ tr = tr1 ++ tr2 := by
  change Stops umask (p.bind f) d tr d'' at h
  induction p generalizing d tr with
  | ret a => exact .inr ⟨[], a, d, tr, .ret, h, rfl⟩
  | call o k ih =>
    cases h with
    | here => exact .inl .here
    | @call _ _ _ r d1 tr _ hs h =>
      rcases ih r h with h | ⟨tr1, a, d', tr2, h1, h2, rfl⟩
      · exact .inl (.call hs h)
      · exact .inr ⟨_, a, d', tr2, .call hs h1, h2, rfl⟩

end Log4g
