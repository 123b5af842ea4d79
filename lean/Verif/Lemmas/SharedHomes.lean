import Verif.Lemmas.SharedGrow

/-! # Several writers: which file a piece goes to -/

namespace Log4g
open Spec
variable {umask : Nat} {lib : RLib} {cs : Nat → Option RCfg}

/-- What a file held before the run. -/
def heldAt (v0 : Volume) (k : Nat) : Bytes := if k < v0.next then (v0.nodes k).1 else []

/-- A file that had a name before the run or was made in it. -/
def Known (v0 : Volume) (k : Nat) : Prop := v0.next ≤ k ∨ ∃ n, v0.names n = some (.file k)

/-- What is known of the files; `order` says who wrote what to which. -/
structure HomesInv (v0 : Volume) (order : List (Nat × Nat × Bytes)) (s : Shared) : Prop where
  sound : OneName s.vol
  grows : v0.next ≤ s.vol.next
  names : ∀ n k, s.vol.names n = some (.file k) → Known v0 k
  opened : ∀ i k, (s.wr i).fd = some k → k < s.vol.next ∧ Known v0 k
  homes : ∀ x ∈ order, x.2.1 < s.vol.next ∧ Known v0 x.2.1
  data : ∀ k, k < s.vol.next → (s.vol.nodes k).1 = heldAt v0 k ++ ((order.filter fun x => x.2.1 = k).map (·.2.2)).flatten

/-- What a call does to the files. -/
theorem homes_step {v0 : Volume} {order : List (Nat × Nat × Bytes)} {s : Shared} {i : Nat} {o : Sys} {r : o.Resp} {v' : Volume} {h' : Option Nat}
    (job : Option (Bytes × Prog ((Nat × Bool) × RW))) (inv : HomesInv v0 order s) (hs : VolStep umask s.vol (s.wr i).fd o r v' h') :
    ∃ k, HomesInv v0 (order ++ (chunks [⟨o, r⟩]).map fun b => (i, k, b)) ({ s with vol := v' }.set i { s.wr i with fd := h', job := job }) := by
  have vol_eq : ∀ x : Scribe, (({ s with vol := v' } : Shared).set i x).vol = v' := fun _ => rfl
  -- a step that leaves contents, numbers and what is open alone
  have same : ∀ {v' : Volume}, chunks [⟨o, r⟩] = [] → h' = (s.wr i).fd ∨ h' = none → v'.next = s.vol.next → (∀ k, (v'.nodes k).1 = (s.vol.nodes k).1) → OneName v' →
      (∀ n k, v'.names n = some (.file k) → Known v0 k) →
      ∃ k, HomesInv v0 (order ++ (chunks [⟨o, r⟩]).map fun b => (i, k, b)) ({ s with vol := v' }.set i { s.wr i with fd := h', job := job }) := by
    intro v' hc hh hn hd hv hk
    refine ⟨0, ?_⟩
    rw [hc, List.map_nil, List.append_nil]
    refine ⟨hv, ?_, hk, ?_, ?_, ?_⟩
    · show v0.next ≤ v'.next; rw [hn]; exact inv.grows
    · intro j k hj
      show k < v'.next ∧ _
      rw [hn]
      rw [wr_set] at hj
      split at hj
      · rcases hh with hh | hh
        · subst hh; exact inv.opened i k hj
        · subst hh; cases hj
      · exact inv.opened j k hj
    · intro x hx; show x.2.1 < v'.next ∧ _; rw [hn]; exact inv.homes x hx
    · intro k hk
      show (v'.nodes k).1 = _
      rw [hd]; exact inv.data k (by rw [← hn]; exact hk)
  have keep : ∀ {h'' : Option Nat}, h'' = h' → chunks [⟨o, r⟩] = [] → v' = s.vol ∧ (h' = (s.wr i).fd ∨ h' = none) →
      ∃ k, HomesInv v0 (order ++ (chunks [⟨o, r⟩]).map fun b => (i, k, b)) ({ s with vol := v' }.set i { s.wr i with fd := h', job := job }) := by
    rintro _ _ hc ⟨hv, hh⟩
    subst hv
    exact same hc hh rfl (fun _ => rfl) inv.sound inv.names
  cases o <;> simp only [VolStep] at hs
  case mkdirAll p => exact keep rfl rfl ⟨hs.1, .inl hs.2⟩
  case openAppend n p =>
    by_cases hr : r = true
    · rw [if_pos hr] at hs
      cases hn : s.vol.names n with
      | none =>
        rw [hn] at hs
        obtain ⟨_, hv, hh⟩ := hs
        clear same keep
        have hv : v' = s.vol.create n (p &&& (0o777 ^^^ (umask &&& 0o777))) := hv
        generalize (p &&& (0o777 ^^^ (umask &&& 0o777))) = q at hv
        subst hh
        refine ⟨0, ?_⟩
        show HomesInv v0 (order ++ []) _
        rw [List.append_nil]
        have hnext : v'.next = s.vol.next + 1 := by rw [hv]; rfl
        have hnodes : ∀ k, v'.nodes k = if k = s.vol.next then ([], q) else s.vol.nodes k := fun k => by rw [hv]; rfl
        have hnames : ∀ m, v'.names m = if m = n then some (.file s.vol.next) else s.vol.names m := fun m => by rw [hv]; rfl
        refine ⟨by rw [vol_eq, hv]; exact sound_create inv.sound n q, ?_, ?_, ?_, ?_, ?_⟩
        · rw [vol_eq, hnext]; have := inv.grows; omega
        · intro m k hm
          rw [vol_eq, hnames] at hm
          split at hm
          · cases hm; exact .inl inv.grows
          · exact inv.names m k hm
        · intro j k hj
          rw [vol_eq, hnext]
          rw [wr_set] at hj
          split at hj
          · cases hj; exact ⟨by omega, .inl inv.grows⟩
          · have := inv.opened j k hj; exact ⟨by omega, this.2⟩
        · intro x hx; rw [vol_eq, hnext]; have := inv.homes x hx; exact ⟨by omega, this.2⟩
        · intro k hk
          rw [vol_eq, hnodes]
          rw [vol_eq, hnext] at hk
          split
          · rename_i e
            subst e
            have : (order.filter fun x => x.2.1 = s.vol.next) = [] := by
              apply List.filter_eq_nil_iff.mpr
              intro x hx
              have := (inv.homes x hx).1
              simp; omega
            have hg := inv.grows
            rw [this, heldAt, if_neg (by omega)]; rfl
          · exact inv.data k (by omega)
      | some l =>
        rw [hn] at hs
        cases l with
        | dir => exact hs.elim
        | file k =>
          obtain ⟨hv, hh⟩ := hs
          subst hv; subst hh
          refine ⟨0, ?_⟩
          show HomesInv v0 (order ++ []) _
          rw [List.append_nil]
          refine ⟨inv.sound, inv.grows, inv.names, ?_, inv.homes, inv.data⟩
          intro j k' hj
          rw [wr_set] at hj
          split at hj
          · cases hj; exact ⟨inv.sound.new n k hn, inv.names n k hn⟩
          · exact inv.opened j k' hj
    · rw [if_neg hr] at hs
      exact keep rfl rfl ⟨hs.1, .inl hs.2⟩
  case stat n => exact keep rfl rfl ⟨hs.1, .inl hs.2.1⟩
  case write n bs =>
    obtain ⟨hh, k, hk, _, _, hv⟩ := hs
    clear same keep
    refine ⟨k, ?_⟩
    obtain ⟨hlt, hkn⟩ := inv.opened i k hk
    subst hh
    have hnodes : ∀ j, v'.nodes j = if j = k then ((s.vol.nodes k).1 ++ bs.take r.1, (s.vol.nodes k).2) else s.vol.nodes j := fun j => by rw [hv]; rfl
    have hnext : v'.next = s.vol.next := by rw [hv]; rfl
    have hnames : v'.names = s.vol.names := by rw [hv]; rfl
    refine ⟨by rw [vol_eq, hv]; exact sound_set inv.sound k _, ?_, ?_, ?_, ?_, ?_⟩
    · rw [vol_eq, hnext]; exact inv.grows
    · rw [vol_eq, hnames]; exact inv.names
    · intro j k' hj
      rw [vol_eq, hnext]
      rw [wr_set] at hj
      split at hj
      · exact inv.opened i k' hj
      · exact inv.opened j k' hj
    · intro x hx
      rw [vol_eq, hnext]
      rcases List.mem_append.mp hx with hx | hx
      · exact inv.homes x hx
      · simp only [chunks, List.map_cons, List.map_nil, List.mem_singleton] at hx
        subst hx; exact ⟨hlt, hkn⟩
    · intro j hj
      rw [vol_eq, hnext] at hj
      rw [vol_eq, hnodes]
      simp only [chunks, List.map_cons, List.map_nil, List.filter_append, List.map_append, List.flatten_append]
      split
      · rename_i e; subst e
        rw [← List.append_assoc, ← inv.data j hj]
        simp
      · rename_i e
        rw [inv.data j hj]
        simp [Ne.symm e]
  case close n => exact keep rfl rfl ⟨hs.1, .inr hs.2⟩
  case readdir => exact keep rfl rfl ⟨hs.1, .inl hs.2.1⟩
  case rename a b =>
    obtain ⟨hh, hs⟩ := hs
    by_cases hr : r = true
    · rw [if_pos hr] at hs
      obtain ⟨k, hk, _, _, hv⟩ := hs
      refine same rfl (.inl hh) (by rw [hv]; rfl) (fun _ => by rw [hv]; rfl) (by rw [hv]; exact sound_move inv.sound hk) ?_
      intro n j hj
      rw [hv] at hj
      simp only [Volume.link] at hj
      split at hj
      · cases hj; exact inv.names a k hk
      · split at hj
        · cases hj
        · exact inv.names n j hj
    · rw [if_neg hr] at hs
      exact keep rfl rfl ⟨hs, .inl hh⟩
  case chmod n p =>
    obtain ⟨hh, hs⟩ := hs
    by_cases hr : r = true
    · rw [if_pos hr] at hs
      obtain ⟨k, hk, hv⟩ := hs
      refine same rfl (.inl hh) (by rw [hv]; rfl) (fun j => ?_) (by rw [hv]; exact sound_set inv.sound k _) (by rw [hv]; exact inv.names)
      rw [hv]
      simp only [Volume.set]
      split
      · rename_i e; rw [e]
      · rfl
    · rw [if_neg hr] at hs
      exact keep rfl rfl ⟨hs, .inl hh⟩
  case remove n =>
    obtain ⟨hh, hs⟩ := hs
    by_cases hr : r = true
    · rw [if_pos hr] at hs
      rcases hs with ⟨_, hv⟩ | ⟨k, hk, hv⟩
      · exact keep rfl rfl ⟨hv, .inl hh⟩
      · refine same rfl (.inl hh) (by rw [hv]; rfl) (fun _ => by rw [hv]; rfl) (by rw [hv]; exact sound_unlink inv.sound n) ?_
        intro m j hj
        rw [hv] at hj
        simp only [Volume.link] at hj
        split at hj
        · cases hj
        · exact inv.names m j hj
    · rw [if_neg hr] at hs
      exact keep rfl rfl ⟨hs, .inl hh⟩
  case now => exact keep rfl rfl ⟨hs.1, .inl hs.2⟩
  case tmpCreate =>
    obtain ⟨hh, hs⟩ := hs
    have hs : v' = s.vol ∨ v' = s.vol.link tempDir (some .dir) := by
      split at hs
      · split at hs
        · exact .inr hs
        · exact .inl hs
        · exact hs.elim
      · rcases hs with hs | ⟨_, hs⟩
        · exact .inl hs
        · exact .inr hs
    rcases hs with hv | hv
    · exact keep rfl rfl ⟨hv, .inl hh⟩
    · refine same rfl (.inl hh) (by rw [hv]; rfl) (fun _ => by rw [hv]; rfl) (by rw [hv]; exact temp_sound inv.sound) ?_
      intro m j hj
      rw [hv] at hj
      simp only [Volume.link] at hj
      split at hj
      · cases hj
      · exact inv.names m j hj
  case archRead => exact keep rfl rfl ⟨hs.1, .inl hs.2.1⟩
  case tmpClose => exact keep rfl rfl ⟨hs.1, .inl hs.2⟩
  case tmpRemove => exact keep rfl rfl ⟨hs.1, .inl hs.2⟩

/-- Every piece has gone to one file. -/
theorem homes_inv {v0 : Volume} (hv : OneName v0) {tr : List ShLab} {s : Shared} (hx : ShExec umask lib cs { vol := v0 } tr s) :
    ∃ order : List (Nat × Nat × Bytes), (order.map fun x => (x.1, x.2.2)) = piecesIn tr ∧ HomesInv v0 order s := by
  induction hx with
  | start =>
    refine ⟨[], rfl, hv, Nat.le_refl _, fun n k h => .inr ⟨n, h⟩, ?_, by simp, ?_⟩
    · intro i k h; cases h
    · intro k hk; simp [heldAt, show k < v0.next from hk]
  | @step tr s l s' hx hs ih =>
    obtain ⟨order, h1, inv⟩ := ih
    rw [piecesIn_append, ← h1]
    have quiet : ∀ (i : Nat) (x : Scribe), (x.fd = (s.wr i).fd ∨ x.fd = none) → HomesInv v0 order (s.set i x) := by
      intro i x hfd
      refine ⟨inv.sound, inv.grows, inv.names, ?_, inv.homes, inv.data⟩
      intro j k hj
      rw [wr_set] at hj
      split at hj
      · rcases hfd with hfd | hfd
        · rw [hfd] at hj; exact inv.opened i k hj
        · rw [hfd] at hj; cases hj
      · exact inv.opened j k hj
    cases hs with
    | start _ _ => exact ⟨order, by simp [piecesIn], quiet _ _ (.inl rfl)⟩
    | @sys i msg o k r v' h' _ hst =>
      obtain ⟨m, hm⟩ := homes_step (some (msg, k r)) inv hst
      exact ⟨_, by simp [piecesIn, Function.comp_def], hm⟩
    | ret _ => exact ⟨order, by simp [piecesIn], quiet _ _ (.inl rfl)⟩
    | die => exact ⟨order, by simp [piecesIn], quiet _ _ (.inr rfl)⟩

/-- A step that removes no file and renames none to a name that is taken leaves every file its name. -/
theorem named_step {P : Nat → Prop} {v v' : Volume} {h h' : Option Nat} {o : Sys} {r : o.Resp} (hst : VolStep umask v h o r v' h')
    (hrm : ∀ n, o = .remove n → ¬ HEq r true) (hre : ∀ a b, o = .rename a b → HEq r true → ∀ k, v.names b ≠ some (.file k))
    (ih : ∀ k, k < v.next → P k → ∃ n, v.names n = some (.file k)) : ∀ k, k < v'.next → P k → ∃ n, v'.names n = some (.file k) := by
  have keep : v' = v → ∀ k, k < v'.next → P k → ∃ n, v'.names n = some (.file k) := by rintro rfl; exact ih
  cases o <;> simp only [VolStep] at hst
  case mkdirAll p => exact keep hst.1
  case openAppend n p =>
    by_cases hr : r = true
    · rw [if_pos hr] at hst
      cases hn : v.names n with
      | none =>
        rw [hn] at hst
        obtain ⟨_, hv', _⟩ := hst
        intro k hk hkn
        have hnext : v'.next = v.next + 1 := by rw [hv']
        have hnames : ∀ m, v'.names m = if m = n then some (.file v.next) else v.names m := fun m => by rw [hv']; rfl
        by_cases e : k = v.next
        · exact ⟨n, by rw [hnames, if_pos rfl, e]⟩
        · obtain ⟨m, hm⟩ := ih k (by omega) hkn
          refine ⟨m, ?_⟩
          rw [hnames, if_neg]
          · exact hm
          · rintro rfl; rw [hn] at hm; cases hm
      | some l =>
        rw [hn] at hst
        cases l with
        | dir => exact hst.elim
        | file k => exact keep hst.1
    · rw [if_neg hr] at hst; exact keep hst.1
  case stat n => exact keep hst.1
  case write n bs =>
    obtain ⟨_, k, _, _, _, hv'⟩ := hst
    rw [hv']; exact ih
  case close n => exact keep hst.1
  case readdir => exact keep hst.1
  case rename a b =>
    by_cases hr : r = true
    · rw [if_pos hr] at hst
      obtain ⟨_, k, hk, _, hab, hv'⟩ := hst
      have hb : ∀ k, v.names b ≠ some (.file k) := hre a b rfl (heq_of_eq hr)
      have hnames : ∀ m, v'.names m = if m = b then some (.file k) else if m = a then none else v.names m := fun m => by rw [hv']; rfl
      intro j hj hjn
      obtain ⟨m, hm⟩ := ih j (by rw [hv'] at hj; exact hj) hjn
      by_cases e : m = a
      · subst e; rw [hk] at hm; cases hm
        exact ⟨b, by rw [hnames, if_pos rfl]⟩
      · refine ⟨m, ?_⟩
        rw [hnames, if_neg, if_neg e]
        · exact hm
        · rintro rfl; exact hb _ hm
    · rw [if_neg hr] at hst; exact keep hst.2
  case chmod n p =>
    by_cases hr : r = true
    · rw [if_pos hr] at hst
      obtain ⟨_, k, _, hv'⟩ := hst
      rw [hv']; exact ih
    · rw [if_neg hr] at hst; exact keep hst.2
  case remove n =>
    by_cases hr : r = true
    · exact absurd (heq_of_eq hr) (hrm n rfl)
    · rw [if_neg hr] at hst; exact keep hst.2
  case now => exact keep hst.1
  case tmpCreate =>
    obtain ⟨_, hst⟩ := hst
    have hst : v' = v ∨ v.names tempDir = none ∧ v' = v.link tempDir (some .dir) := by
      split at hst
      · split at hst
        · rename_i e; exact .inr ⟨e, hst⟩
        · exact .inl hst
        · exact hst.elim
      · exact hst
    rcases hst with h | ⟨hn, h⟩
    · exact keep h
    · rw [h]
      intro k hk hkn
      obtain ⟨m, hm⟩ := ih k hk hkn
      exact ⟨m, temp_names hn hm⟩
  case archRead => exact keep hst.1
  case tmpClose => exact keep hst.1
  case tmpRemove => exact keep hst.1

/-- Where names of files come from. -/
theorem name_step {v v' : Volume} {h h' : Option Nat} {o : Sys} {r : o.Resp} (hst : VolStep umask v h o r v' h') {n : Str} {k : Nat}
    (hk : v'.names n = some (.file k)) : (∃ j, v.names n = some (.file j)) ∨ (∃ a, o = .rename a n ∧ HEq r true) ∨ ∃ p, o = .openAppend n p ∧ HEq r true := by
  have keep : v'.names = v.names → (∃ j, v.names n = some (.file j)) ∨ (∃ a, o = .rename a n ∧ HEq r true) ∨ ∃ p, o = .openAppend n p ∧ HEq r true := by
    intro e; rw [e] at hk; exact .inl ⟨k, hk⟩
  cases o <;> simp only [VolStep] at hst
  case mkdirAll p => exact keep (by rw [hst.1])
  case openAppend m p =>
    by_cases hr : r = true
    · rw [if_pos hr] at hst
      by_cases e : m = n
      · subst e; exact .inr (.inr ⟨p, rfl, heq_of_eq hr⟩)
      · cases hn : v.names m with
        | none =>
          rw [hn] at hst
          rw [hst.2.1] at hk
          have hk : (if n = m then _ else v.names n) = some (.file k) := hk
          rw [if_neg (Ne.symm e)] at hk
          exact .inl ⟨k, hk⟩
        | some l =>
          rw [hn] at hst
          cases l with
          | dir => exact hst.elim
          | file k => exact keep (by rw [hst.1])
    · rw [if_neg hr] at hst; exact keep (by rw [hst.1])
  case stat n => exact keep (by rw [hst.1])
  case write n bs =>
    obtain ⟨_, k, _, _, _, hv'⟩ := hst
    exact keep (by rw [hv']; rfl)
  case close n => exact keep (by rw [hst.1])
  case readdir => exact keep (by rw [hst.1])
  case rename a b =>
    by_cases hr : r = true
    · rw [if_pos hr] at hst
      obtain ⟨_, j, _, _, _, hv'⟩ := hst
      by_cases e : n = b
      · subst e; exact .inr (.inl ⟨a, rfl, heq_of_eq hr⟩)
      · rw [hv'] at hk
        simp only [Volume.link, if_neg e] at hk
        split at hk
        · cases hk
        · exact .inl ⟨k, hk⟩
    · rw [if_neg hr] at hst; exact keep (by rw [hst.2])
  case chmod n p =>
    by_cases hr : r = true
    · rw [if_pos hr] at hst
      obtain ⟨_, k, _, hv'⟩ := hst
      exact keep (by rw [hv']; rfl)
    · rw [if_neg hr] at hst; exact keep (by rw [hst.2])
  case remove m =>
    by_cases hr : r = true
    · rw [if_pos hr] at hst
      rcases hst with ⟨_, ⟨_, hv'⟩ | ⟨j, _, hv'⟩⟩
      · exact keep (by rw [hv'])
      · rw [hv'] at hk
        simp only [Volume.link] at hk
        split at hk
        · cases hk
        · exact .inl ⟨k, hk⟩
    · rw [if_neg hr] at hst; exact keep (by rw [hst.2])
  case now => exact keep (by rw [hst.1])
  case tmpCreate =>
    obtain ⟨_, hst⟩ := hst
    have hst : v' = v ∨ v' = v.link tempDir (some .dir) := by
      split at hst
      · split at hst
        · exact .inr hst
        · exact .inl hst
        · exact hst.elim
      · rcases hst with hst | ⟨_, hst⟩
        · exact .inl hst
        · exact .inr hst
    rcases hst with e | e
    · exact keep (by rw [e])
    · rw [e] at hk
      simp only [Volume.link] at hk
      split at hk
      · cases hk
      · exact .inl ⟨k, hk⟩
  case archRead => exact keep (by rw [hst.1])
  case tmpClose => exact keep (by rw [hst.1])
  case tmpRemove => exact keep (by rw [hst.1])

theorem name_from {v0 : Volume} {tr : List ShLab} {s : Shared} (hx : ShExec umask lib cs { vol := v0 } tr s) {n : Str} {k : Nat}
    (hk : s.vol.names n = some (.file k)) : v0.names n ≠ none ∨ (∃ i a, .sys i ⟨.rename a n, true⟩ ∈ tr) ∨ ∃ i p, .sys i ⟨.openAppend n p, true⟩ ∈ tr := by
  induction hx generalizing k with
  | start => left; rw [show v0.names n = _ from hk]; simp
  | @step tr s l s' hx hs ih =>
    have ih : ∀ k, s.vol.names n = some (.file k) → v0.names n ≠ none ∨ (∃ i a, .sys i ⟨.rename a n, true⟩ ∈ tr ++ [l]) ∨ ∃ i p, .sys i ⟨.openAppend n p, true⟩ ∈ tr ++ [l] := by
      intro k hk
      rcases ih hk with h | ⟨i, a, h⟩ | ⟨i, p, h⟩
      · exact .inl h
      · exact .inr (.inl ⟨i, a, List.mem_append_left _ h⟩)
      · exact .inr (.inr ⟨i, p, List.mem_append_left _ h⟩)
    cases hs with
    | start _ _ => exact ih k hk
    | ret _ => exact ih k hk
    | die => exact ih k hk
    | @sys i msg o kk r v' h' _ hst =>
      rcases name_step hst (show v'.names n = _ from hk) with ⟨j, h⟩ | ⟨a, rfl, hr⟩ | ⟨p, rfl, hr⟩
      · exact ih j h
      · cases hr; exact .inr (.inl ⟨i, a, by simp⟩)
      · cases hr; exact .inr (.inr ⟨i, p, by simp⟩)

/-- If nobody removes a file or renames one to a name that is taken, every file keeps a name. -/
theorem named_inv {v0 : Volume} {tr : List ShLab} {s : Shared} (hx : ShExec umask lib cs { vol := v0 } tr s)
    (hrm : ∀ i n, .sys i ⟨.remove n, true⟩ ∉ tr) (hre : FreshBackups v0 tr) :
    ∀ k, k < s.vol.next → Known v0 k → ∃ n, s.vol.names n = some (.file k) := by
  induction hx with
  | start =>
    intro k hk hn
    rcases hn with hn | hn
    · exact absurd hk (Nat.not_lt.mpr hn)
    · exact hn
  | @step tr s l s' hx hs ih =>
    have ih := ih (fun i n h => hrm i n (List.mem_append_left _ h)) (fun t1 i a b t2 e => hre t1 i a b (t2 ++ [l]) (by rw [e]; simp))
    cases hs with
    | start _ _ => exact ih
    | ret _ => exact ih
    | die => exact ih
    | @sys i msg o kk r v' h' _ hst =>
      show ∀ k, k < v'.next → Known v0 k → ∃ n, v'.names n = some (.file k)
      refine named_step hst ?_ ?_ ih
      · rintro n rfl hr; cases hr; exact absurd (by simp) (hrm i n)
      · rintro a b rfl hr k hk
        cases hr
        obtain ⟨h1, h2, h3⟩ := hre tr i a b [] rfl
        rcases name_from hx hk with h | ⟨j, a', h⟩ | ⟨j, p, h⟩
        · exact h h1
        · exact h2 j a' h
        · exact h3 j p h

end Log4g
