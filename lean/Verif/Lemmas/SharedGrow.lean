import Verif.Lemmas.SharedRuns

/-! # Several writers that do not roll -/

namespace Log4g
open Spec Strconv

variable {umask : Nat} {lib : RLib} {c : RCfg} {cs : Nat → Option RCfg}

/-! ## Files are removed only after a roll -/

/-- A renaming that succeeded. -/
def renamed : (o : Sys) → o.Resp → Prop
  | .rename _ _, r => r = true
  | _, _ => False

/-- Nothing is removed before something is renamed. -/
def Prog.Calm {α : Type} : Prog α → Prop
  | .ret _ => True
  | .call o k => (∀ n, o ≠ .remove n) ∧ ∀ r, renamed o r ∨ (k r).Calm

section
variable {α β : Type}

theorem Prog.Calm.bind {p : Prog α} {g : α → Prog β} (hp : p.Calm) (hg : ∀ a, (g a).Calm) : (p >>= g).Calm := by
  show (p.bind g).Calm
  induction p with
  | ret a => exact hg a
  | call o k ih => exact ⟨hp.1, fun r => (hp.2 r).imp id (ih r)⟩

theorem Prog.All.calm {p : Prog α} {f : Sys → Prop} (hp : p.All f) (hf : ∀ n, ¬ f (.remove n)) : p.Calm := by
  induction p with
  | ret a => trivial
  | call o k ih => exact ⟨fun n e => hf n (e ▸ hp.1), fun r => .inr (ih r (hp.2 r))⟩

theorem calm_rollOver (rw : RW) (hs : List Str) : (c.rollOver lib rw hs).Calm := by
  have key : ∀ tag (rw' : RW), Prog.Calm (do
        let newHistoryName := c.createFullFileName c.fileName tag
        if (← sys (.rename rw'.name newHistoryName)) = false then return (false, rw')
        let _ ← sys (.chmod newHistoryName c.backPerm)
        let history := hs ++ [newHistoryName]
        if (history.length : Int) > c.maxRolls then c.deleteOldRolls history
        return (true, rw')) := by
    intro tag rw'
    refine ⟨by simp, fun b => ?_⟩
    cases b with
    | false => exact .inr trivial
    | true => exact .inl rfl
  rw [RCfg.rollOver, RCfg.getNewHistoryRollFileName]
  cases hk : c.kind with
  | size max => exact key _ _
  | time pat => exact ⟨by simp, fun t => .inr (key rw.timeName { rw with timeName := lib.format t pat })⟩

theorem calm_roll (rw : RW) : (c.roll lib rw).Calm := by
  rw [RCfg.roll]
  split
  · trivial
  · trivial
  · refine ⟨by simp, fun b => .inr ?_⟩
    cases b with
    | false => trivial
    | true =>
      rw [RCfg.getSortedLogHistory]
      refine ⟨by simp, fun r => .inr ?_⟩
      cases r with
      | none => trivial
      | some names => exact calm_rollOver _ _

theorem calm_append (rw : RW) (bs : Bytes) : (c.append rw bs).Calm := by
  have hput : ∀ rw1 : RW, (RCfg.put rw1 bs).Calm := by
    intro rw1
    rw [RCfg.put]
    split
    · exact ⟨by simp, fun _ => .inr trivial⟩
    · trivial
  rw [RCfg.append]
  split
  · rename_i hf
    refine Prog.Calm.bind ((does_createFile c hf).all.calm (by simp [openOp])) ?_
    rintro ⟨ok, rw2⟩
    dsimp only
    split
    · trivial
    · exact hput rw2
  · exact hput rw

theorem calm_write (rw : RW) (bs : Bytes) : (c.write lib rw bs).Calm := by
  rw [RCfg.write]
  refine Prog.Calm.bind ((all_needsToRoll lib c rw).calm (by simp)) ?_
  rintro ⟨b, rw1⟩
  dsimp only
  split
  · refine Prog.Calm.bind (calm_roll rw1) ?_
    rintro ⟨ok, rw2⟩
    dsimp only
    split
    · trivial
    · exact calm_append rw2 bs
  · exact calm_append rw1 bs

/-! ## What a program hands to `write` -/

/-- Results the operating system may give. -/
def fits : (o : Sys) → o.Resp → Prop
  | .write _ bs, r => r.1 ≤ bs.length ∧ (r.2 = true → r.1 = bs.length)
  | _, _ => True

/-- What is written is always `I`, and in the end `Q`. -/
def Prog.Puts (I : List Bytes → Prop) (Q : List Bytes → α → Prop) : List Bytes → Prog α → Prop
  | acc, .ret a => I acc ∧ Q acc a
  | acc, .call o k => I acc ∧ ∀ r, fits o r → (k r).Puts I Q (acc ++ chunks [⟨o, r⟩])

variable {I : List Bytes → Prop} {Q : List Bytes → α → Prop} {R : List Bytes → β → Prop}

theorem Prog.Puts.now {p : Prog α} {acc : List Bytes} (h : p.Puts I Q acc) : I acc := by
  cases p <;> exact h.1

theorem Prog.Puts.bind {p : Prog α} {g : α → Prog β} {acc : List Bytes} (hp : p.Puts I Q acc) (hg : ∀ acc a, Q acc a → (g a).Puts I R acc) :
    (p >>= g).Puts I R acc := by
  show (p.bind g).Puts I R acc
  induction p generalizing acc with
  | ret a => exact hg acc a hp.2
  | call o k ih => exact ⟨hp.1, fun r hr => ih r (hp.2 r hr)⟩

theorem Prog.All.puts {p : Prog α} {f : Sys → Prop} (hp : p.All f) (hf : ∀ n bs, ¬ f (.write n bs)) {acc : List Bytes} (ha : I acc) :
    p.Puts I (fun acc' _ => acc' = acc) acc := by
  induction p with
  | ret a => exact ⟨ha, rfl⟩
  | call o k ih =>
    refine ⟨ha, fun r _ => ?_⟩
    have : chunks [⟨o, r⟩] = [] := by
      have h1 := hp.1
      cases o <;> first | rfl | exact absurd h1 (hf _ _)
    rw [this, List.append_nil]
    exact ih r (hp.2 r)

end

/-- What a write of `msg` has written: nothing yet, or a first part of the message. -/
def PartOf (msg : Bytes) (acc : List Bytes) : Prop := acc = [] ∨ ∃ n, acc = [msg.take n]

/-- What it has written when it returns. -/
def Done (msg : Bytes) (acc : List Bytes) (br : (Nat × Bool) × RW) : Prop :=
  acc = [msg.take br.1.1] ∧ br.1.1 ≤ msg.length ∧ (br.1.2 = true → br.1.1 = msg.length) ∨ acc = [] ∧ br.1 = (0, false)

theorem puts_append (rw : RW) (bs : Bytes) : (c.append rw bs).Puts (PartOf bs) (Done bs) [] := by
  have hput : ∀ rw1 : RW, (RCfg.put rw1 bs).Puts (PartOf bs) (Done bs) [] := by
    intro rw1
    rw [RCfg.put]
    split
    · refine ⟨.inl rfl, fun r hr => ⟨.inr ⟨r.1, rfl⟩, .inl ⟨rfl, hr⟩⟩⟩
    · exact ⟨.inl rfl, .inr ⟨rfl, rfl⟩⟩
  rw [RCfg.append]
  split
  · rename_i hf
    refine Prog.Puts.bind ((does_createFile c hf).all.puts (by simp [openOp]) (.inl rfl)) ?_
    rintro _ ⟨ok, rw2⟩ rfl
    dsimp only
    split
    · exact ⟨.inl rfl, .inr ⟨rfl, rfl⟩⟩
    · exact hput rw2
  · exact hput rw

theorem puts_write (rw : RW) (bs : Bytes) : (c.write lib rw bs).Puts (PartOf bs) (Done bs) [] := by
  rw [RCfg.write]
  refine Prog.Puts.bind ((all_needsToRoll lib c rw).puts (by simp) (.inl rfl)) ?_
  rintro _ ⟨b, rw1⟩ rfl
  dsimp only
  split
  · refine Prog.Puts.bind ((all_roll (own := fun _ => True) (fun _ => trivial) (fun _ _ _ => trivial) fun _ _ => trivial).puts (by simp [rollOp]) (.inl rfl)) ?_
    rintro _ ⟨ok, rw2⟩ rfl
    dsimp only
    split
    · exact ⟨.inl rfl, .inr ⟨rfl, rfl⟩⟩
    · exact puts_append rw2 bs
  · exact puts_append rw1 bs

/-- Who wrote what, in order. -/
def piecesIn : List ShLab → List (Nat × Bytes)
  | [] => []
  | .sys i x :: tr => (chunks [x]).map (fun b => (i, b)) ++ piecesIn tr
  | _ :: tr => piecesIn tr

theorem piecesIn_append (a b : List ShLab) : piecesIn (a ++ b) = piecesIn a ++ piecesIn b := by
  induction a with
  | nil => rfl
  | cons x a ih => cases x <;> simp [piecesIn, ih]

/-- Those of writer `i`. -/
def piecesBy (i : Nat) (tr : List ShLab) : List Bytes := ((piecesIn tr).filter fun x => x.1 = i).map (·.2)

theorem piecesBy_append (i : Nat) (a b : List ShLab) : piecesBy i (a ++ b) = piecesBy i a ++ piecesBy i b := by
  simp [piecesBy, piecesIn_append]

theorem piecesBy_sys (i j : Nat) (x : (o : Sys) × o.Resp) : piecesBy i [.sys j x] = if j = i then chunks [x] else [] := by
  simp only [piecesBy, piecesIn, List.append_nil]
  by_cases e : j = i
  · subst e; simp [List.filter_map, Function.comp_def]
  · simp [e, List.filter_map, Function.comp_def]

theorem volStep_fits {v v' : Volume} {h h' : Option Nat} {o : Sys} {r : o.Resp} (hs : VolStep umask v h o r v' h') : fits o r := by
  cases o <;> simp only [fits]
  obtain ⟨_, _, _, h1, h2, _⟩ := hs
  exact ⟨h1, h2⟩

/-- What the writers have written is what they were given, as far as they say. -/
theorem sh_pieces {s0 : Shared} (h0 : ∀ i, s0.wr i = {}) {tr : List ShLab} {s : Shared} (hx : ShExec umask lib cs s0 tr s) (i : Nat) :
    match (s.wr i).job with
    | none => PiecesOf (deedsOf i tr) (piecesBy i tr)
    | some (msg, p) => ∃ ps acc, PiecesOf (deedsOf i tr) ps ∧ piecesBy i tr = ps ++ acc ∧ p.Puts (PartOf msg) (Done msg) acc := by
  induction hx with
  | start => rw [h0]; exact .nil
  | @step tr s l s' hx hs ih =>
    cases hs with
    | @start j c msg hj hn =>
      rw [piecesBy_append, deedsOf_append]
      simp only [show piecesBy i [.start j msg] = [] from rfl, show deedsOf i [.start j msg] = [] from rfl, List.append_nil]
      by_cases e : i = j
      · subst e
        rw [hn] at ih
        rw [wr_set, if_pos rfl]
        exact ⟨_, [], ih, by simp, puts_write _ _⟩
      · rw [wr_set, if_neg e]; exact ih
    | @sys j msg o k r v' h' hj hs =>
      rw [piecesBy_append, deedsOf_append, piecesBy_sys]
      simp only [show deedsOf i [.sys j ⟨o, r⟩] = [] from rfl, List.append_nil]
      by_cases e : i = j
      · subst e
        rw [hj] at ih
        rw [wr_set, if_pos rfl]
        obtain ⟨ps, acc, h1, h2, h3⟩ := ih
        refine ⟨ps, acc ++ chunks [⟨o, r⟩], h1, by simp [h2], h3.2 r (volStep_fits hs)⟩
      · rw [wr_set, if_neg e, if_neg (Ne.symm e), List.append_nil]; exact ih
    | @ret j msg res rw' hj =>
      rw [piecesBy_append, deedsOf_append]
      simp only [show piecesBy i [.ret j msg res] = [] from rfl, List.append_nil, deedsOf]
      by_cases e : i = j
      · subst e
        rw [hj] at ih
        rw [wr_set, if_pos rfl]
        obtain ⟨ps, acc, h1, h2, h3⟩ := ih
        simp only [if_true]
        rcases h3.2 with ⟨h4, h5, h6⟩ | ⟨h4, h5⟩
        · rw [h2, h4]; exact .wrote h1 h5 h6
        · dsimp only at h5; subst h5; rw [h2, h4, List.append_nil]; exact .failed h1
      · rw [wr_set, if_neg e, if_neg (Ne.symm e), List.append_nil]; exact ih
    | @die j =>
      rw [piecesBy_append, deedsOf_append]
      simp only [show piecesBy i [.die j ((s.wr j).job.map (·.1))] = [] from rfl, List.append_nil]
      by_cases e : i = j
      · subst e
        rw [wr_set, if_pos rfl]
        cases hj : (s.wr i).job with
        | none =>
          rw [hj] at ih
          simpa [deedsOf] using PiecesOf.restarted ih
        | some x =>
          obtain ⟨msg, p⟩ := x
          rw [hj] at ih
          obtain ⟨ps, acc, h1, h2, h3⟩ := ih
          simp only [Option.map_some, deedsOf, if_true, List.append_nil]
          rcases h3.now with h4 | ⟨n, h4⟩
          · rw [h2, h4, List.append_nil]; exact .diedBefore h1
          · rw [h2, h4]; exact .died n h1
      · have : deedsOf i [.die j ((s.wr j).job.map (·.1))] = [] := by cases (s.wr j).job <;> simp [deedsOf, Ne.symm e]
        rw [wr_set, if_neg e, this, List.append_nil]; exact ih

theorem sh_pieces_pending {s0 : Shared} (h0 : ∀ i, s0.wr i = {}) {tr : List ShLab} {s : Shared} (hx : ShExec umask lib cs s0 tr s) (i : Nat) :
    PiecesOf (deedsOf i tr ++ pending s i) (piecesBy i tr) := by
  have h := sh_pieces h0 hx i
  unfold pending
  cases hj : (s.wr i).job with
  | none => rw [hj] at h; simpa using h
  | some x =>
    obtain ⟨msg, p⟩ := x
    rw [hj] at h
    obtain ⟨ps, acc, h1, h2, h3⟩ := h
    rcases h3.now with h4 | ⟨n, h4⟩
    · rw [h2, h4, List.append_nil]; exact .diedBefore h1
    · rw [h2, h4]; exact .died n h1

/-! ## Files only grow -/

theorem grow_step {b : Bool} {v v' : Volume} {h h' : Option Nat} {o : Sys} {r : o.Resp} (hv : OneName v) (hm : c.may b o) (hh : Holding c b v h)
    (hs : VolStep umask v h o r v' h') (hr : ¬ renamed o r) (hrm : ∀ n, o ≠ .remove n) :
    (∀ n k, v.names n = some (.file k) → v'.names n = some (.file k)) ∧
    ∀ n, dataOf v'.dir n = dataOf v.dir n ++ if n = c.fileName then (chunks [⟨o, r⟩]).flatten else [] := by
  have same : (∀ n k, v.names n = some (.file k) → v.names n = some (.file k)) ∧ ∀ n, dataOf v.dir n = dataOf v.dir n ++ if n = c.fileName then ([] : List Bytes).flatten else [] :=
    ⟨fun _ _ h => h, fun n => by simp⟩
  cases o <;> simp only [RCfg.may] at hm <;> simp only [VolStep] at hs
  case mkdirAll p => obtain ⟨rfl, rfl⟩ := hs; exact same
  case openAppend n p =>
    obtain ⟨rfl, rfl⟩ := hm
    by_cases hr : r = true
    · rw [if_pos hr] at hs
      cases hn : v.names c.fileName with
      | none =>
        rw [hn] at hs
        obtain ⟨_, rfl, rfl⟩ := hs
        refine ⟨fun m k hm => ?_, fun m => ?_⟩
        · have : m ≠ c.fileName := by rintro rfl; rw [hn] at hm; cases hm
          simp [Volume.link, Volume.set, this, hm]
        · have h1 := dir_create hv c.fileName (p &&& (0o777 ^^^ (umask &&& 0o777))) m
          simp only [Volume.create] at h1
          simp only [dataOf, h1, chunks, List.flatten_nil, ite_self, List.append_nil]
          by_cases e : m = c.fileName
          · subst e; simp [Volume.dir, hn]
          · simp [e]
      | some l =>
        rw [hn] at hs
        cases l with
        | dir => exact hs.elim
        | file k => obtain ⟨rfl, rfl⟩ := hs; exact same
    · rw [if_neg hr] at hs
      obtain ⟨rfl, rfl⟩ := hs
      exact same
  case stat n => obtain ⟨rfl, rfl, _⟩ := hs; exact same
  case write n bs =>
    obtain ⟨rfl, rfl⟩ := hm
    obtain ⟨rfl, k, rfl, h1, h2, rfl⟩ := hs
    obtain ⟨k', e, hn⟩ := hh rfl
    cases e
    refine ⟨fun _ _ h => h, fun m => ?_⟩
    simp only [dataOf, dir_set hv hn, chunks, List.flatten_cons, List.flatten_nil, List.append_nil]
    by_cases e : m = c.fileName
    · subst e; simp [dir_file hn]
    · simp [e]
  case close n => obtain ⟨rfl, rfl⟩ := hs; exact same
  case readdir => obtain ⟨rfl, rfl, _⟩ := hs; exact same
  case rename x y =>
    obtain ⟨rfl, hs⟩ := hs
    rw [if_neg (by simpa [renamed] using hr)] at hs
    subst hs
    exact same
  case chmod n p =>
    obtain ⟨rfl, hs⟩ := hs
    by_cases hr : r = true
    · rw [if_pos hr] at hs
      obtain ⟨k, h3, rfl⟩ := hs
      refine ⟨fun _ _ h => h, fun m => ?_⟩
      simp only [dataOf, dir_set hv h3, chunks, List.flatten_nil, ite_self, List.append_nil]
      by_cases e : m = n
      · subst e; simp [dir_file h3]
      · simp [e]
    · rw [if_neg hr] at hs
      subst hs
      exact same
  case remove n => exact absurd rfl (hrm n)
  case now => obtain ⟨rfl, rfl⟩ := hs; exact same
  case tmpCreate =>
    rcases (temp_step (umask := umask) (r := r) hs).2 with rfl | ⟨hn, rfl⟩
    · exact same
    · refine ⟨fun n k h => temp_names hn h, fun n => ?_⟩
      simp only [chunks, List.flatten_nil, ite_self, List.append_nil]
      by_cases e : n = tempDir
      · subst e; simp [dataOf, Volume.dir, Volume.link, hn]
      · simp only [dataOf, temp_dir e]
  case archRead => obtain ⟨rfl, rfl, _⟩ := hs; exact same
  case tmpClose => obtain ⟨rfl, rfl⟩ := hs; exact same
  case tmpRemove => obtain ⟨rfl, rfl⟩ := hs; exact same

/-- What holds while nobody rolls. -/
structure GrowInv (cs : Nat → Option RCfg) (v0 : Volume) (tr : List ShLab) (s : Shared) : Prop where
  sound : OneName s.vol
  none : ∀ i : Nat, cs i = none → (s.wr i).job = none
  opened : ∀ (i : Nat) c, cs i = some c → ∃ b, Opened c b s i
  calm : ∀ i msg p, (s.wr i).job = some (msg, p) → p.Calm
  data : ∀ n, dataOf s.vol.dir n = dataOf v0.dir n ++ (((piecesIn tr).filter fun x => (cs x.1).map RCfg.fileName = some n).map (·.2)).flatten

theorem rolls_before {i : Nat} {tr : List ShLab} {l : ShLab} (h : rolls (callsOf i (tr ++ [l])) = 0) : rolls (callsOf i tr) = 0 := by
  rw [callsOf_append, rolls_append] at h; omega

theorem grow_inv (hna : ∀ i c, cs i = some c → Usual c) {v0 : Volume} (hv : OneName v0)
    {tr : List ShLab} {s : Shared} (hx : ShExec umask lib cs { vol := v0 } tr s) (hr : ∀ i, rolls (callsOf i tr) = 0) : GrowInv cs v0 tr s := by
  induction hx with
  | start => exact ⟨hv, fun _ _ => rfl, fun i c _ => ⟨false, by unfold Opened; exact ⟨fun h => (by cases h), rfl, fun h => (by cases h)⟩⟩, fun i msg p h => (by cases h), fun n => by simp [piecesIn]⟩
  | @step tr s l s' hx hs ih =>
    have ih := ih fun i => rolls_before (hr i)
    cases hs with
    | @start i c msg hi hj =>
      refine ⟨ih.sound, fun j hn => ?_, fun j c' hc => ?_, fun j m p hp => ?_, fun n => ?_⟩
      · have : j ≠ i := by rintro rfl; rw [hi] at hn; cases hn
        rw [wr_set, if_neg this]; exact ih.none j hn
      · by_cases e : j = i
        · subst e
          rw [hi] at hc; cases hc
          obtain ⟨b, h1, h2⟩ := ih.opened j c hi
          rw [hj] at h2
          refine ⟨b, ?_⟩
          unfold Opened
          rw [wr_set, if_pos rfl]
          exact ⟨h1, tidy_write ((hna _ c hi).imp id And.left) h2⟩
        · obtain ⟨b, h⟩ := ih.opened j c' hc
          exact ⟨b, opened_other h (by rw [wr_set, if_neg e]) rfl⟩
      · rw [wr_set] at hp
        split at hp
        · cases hp; exact calm_write _ _
        · exact ih.calm j m p hp
      · rw [piecesIn_append]; simpa [piecesIn, Shared.set] using ih.data n
    | @sys i msg o k r v' h' hj hs =>
      have hi : ∃ c, cs i = some c := by
        cases hc : cs i with
        | none => rw [ih.none i hc] at hj; cases hj
        | some c => exact ⟨c, rfl⟩
      obtain ⟨c, hi⟩ := hi
      obtain ⟨b, h1, h2⟩ := ih.opened i c hi
      rw [hj] at h2
      obtain ⟨hm, h2⟩ := h2
      obtain ⟨_, hsound, hhold⟩ := own_step ih.sound hm h1 hs
      obtain ⟨hk, h2⟩ := h2 r (vol_sane hs)
      have hcalm := ih.calm i msg _ hj
      have hren : ¬ renamed o r := by
        have := hr i
        rw [callsOf_append, rolls_append] at this
        intro hn
        cases o <;> simp only [renamed] at hn
        subst hn
        simp [callsOf, rolls] at this
      obtain ⟨hnames, hdata⟩ := grow_step ih.sound hm h1 hs hren hcalm.1
      refine ⟨hsound, fun j hn => ?_, fun j c' hc => ?_, fun j m p hp => ?_, fun n => ?_⟩
      · have : j ≠ i := by rintro rfl; rw [hi] at hn; cases hn
        rw [wr_set, if_neg this]; exact ih.none j hn
      · by_cases e : j = i
        · subst e
          rw [hi] at hc; cases hc
          refine ⟨opens b o r, ?_⟩
          unfold Opened
          rw [wr_set, if_pos rfl]
          exact ⟨hhold, h2⟩
        · obtain ⟨b, h⟩ := ih.opened j c' hc
          refine ⟨b, ?_⟩
          unfold Opened at h ⊢
          rw [wr_set, if_neg e]
          refine ⟨fun hb => ?_, h.2⟩
          obtain ⟨k, h4, h5⟩ := h.1 hb
          exact ⟨k, h4, hnames _ _ h5⟩
      · rw [wr_set] at hp
        split at hp
        · cases hp; exact (hcalm.2 r).resolve_left hren
        · exact ih.calm j m p hp
      · have := hdata n
        show dataOf v'.dir n = _
        rw [this, ih.data n, piecesIn_append, List.filter_append, List.map_append, List.flatten_append, List.append_assoc]
        congr 2
        simp only [piecesIn, List.append_nil, List.filter_map, Function.comp_def, hi, Option.map_some, Option.some.injEq, List.map_map]
        by_cases e : n = c.fileName
        · subst e; simp [List.filter_eq_self.mpr]
        · simp [e, Ne.symm e]
    | @ret i msg res rw' hj =>
      refine ⟨ih.sound, fun j hn => ?_, fun j c' hc => ?_, fun j m p hp => ?_, fun n => ?_⟩
      · rw [wr_set]
        split
        · rfl
        · exact ih.none j hn
      · by_cases e : j = i
        · subst e
          obtain ⟨b, h1, h2⟩ := ih.opened j c' hc
          rw [hj] at h2
          refine ⟨b, ?_⟩
          unfold Opened
          rw [wr_set, if_pos rfl]
          exact ⟨h1, h2⟩
        · obtain ⟨b, h⟩ := ih.opened j c' hc
          exact ⟨b, opened_other h (by rw [wr_set, if_neg e]) rfl⟩
      · rw [wr_set] at hp
        split at hp
        · cases hp
        · exact ih.calm j m p hp
      · rw [piecesIn_append]; simpa [piecesIn, Shared.set] using ih.data n
    | @die i =>
      refine ⟨ih.sound, fun j hn => ?_, fun j c' hc => ?_, fun j m p hp => ?_, fun n => ?_⟩
      · rw [wr_set]
        split
        · rfl
        · exact ih.none j hn
      · by_cases e : j = i
        · subst e
          refine ⟨false, ?_⟩
          unfold Opened
          rw [wr_set, if_pos rfl]
          exact ⟨fun h => (by cases h), rfl, fun h => (by cases h)⟩
        · obtain ⟨b, h⟩ := ih.opened j c' hc
          exact ⟨b, opened_other h (by rw [wr_set, if_neg e]) rfl⟩
      · rw [wr_set] at hp
        split at hp
        · cases hp
        · exact ih.calm j m p hp
      · rw [piecesIn_append]; simpa [piecesIn, Shared.set] using ih.data n

end Log4g
