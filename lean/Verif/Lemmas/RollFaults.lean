import Verif.Lemmas.RollDirs
import Verif.Lemmas.RollArch

/-! # The state of the writer after failures -/

namespace Log4g
open Spec Strconv

variable {lib : RLib} {c : RCfg} {umask : Nat}

/-- The size writer has no file and does not open one, as it wants to roll first. -/
def Lost (max : Int) (rw : RW) : Prop := rw.file ≠ some .opened ∧ max ≤ rw.size

def Healthy (max : Int) (rw : RW) : Prop := rw.file = some .opened ∨ rw.file = none ∧ rw.size < max

theorem lost_write {max : Int} (hk : c.kind = .size max) {rw rw' : RW} {bs : Bytes} {d d' : Disk} {tr : STrace} {res : Nat × Bool} (hl : Lost max rw)
    (h : Runs umask (c.write lib rw bs) d tr (res, rw') d') : tr = [] ∧ res = (0, false) ∧ rw' = rw ∧ d' = d := by
  obtain ⟨t1, b, rw1, d1, t2, rw2, d2, k1, k2⟩ := runs_write h
  obtain ⟨rfl, k3⟩ := runs_needsToRoll k1
  rcases k3 with ⟨max', hk', rfl, rfl, rfl⟩ | ⟨_, _, hk', _⟩
  · rw [hk] at hk'; cases hk'
    rcases k2 with ⟨_, hr, rfl, rfl, rfl, rfl⟩ | ⟨hr, t3, ha, rfl⟩
    · rcases runs_roll hr with ⟨_, rfl, ⟨_, rfl, rfl⟩ | ⟨h3, _⟩ | ⟨h3, _⟩⟩ | ⟨h3, _⟩
      · exact ⟨rfl, rfl, rfl, rfl⟩
      all_goals exact absurd h3 hl.1
    · rcases hr with ⟨_, hr⟩ | ⟨hb, _⟩
      · rcases runs_roll hr with ⟨h3, _⟩ | ⟨h3, _⟩
        · cases h3
        · exact absurd h3 hl.1
      · simp at hb; have := hl.2; omega
  · rw [hk] at hk'; cases hk'

theorem dead_write {rw rw' : RW} {bs : Bytes} {d d' : Disk} {tr : STrace} {res : Nat × Bool} (hl : rw.file = some .dead)
    (h : Runs umask (c.write lib rw bs) d tr (res, rw') d') : res = (0, false) ∧ rw'.file = some .dead ∧ d' = d := by
  obtain ⟨t1, b, rw1, d1, t2, rw2, d2, k1, k2⟩ := runs_write h
  obtain ⟨rfl, _⟩ := runs_needsToRoll k1
  have hprop := Prog.Does.runs (does_needsToRoll lib c rw) k1
  have hd : rw1.file = some .dead := by rw [hprop.1]; exact hl
  rcases k2 with ⟨_, hr, rfl, rfl, rfl, rfl⟩ | ⟨hr, t3, ha, rfl⟩
  · rcases runs_roll hr with ⟨_, rfl, ⟨_, rfl, rfl⟩ | ⟨h3, _⟩ | ⟨h3, _⟩⟩ | ⟨h3, _⟩
    · exact ⟨rfl, hd, rfl⟩
    all_goals rw [hd] at h3; cases h3
  · rcases hr with ⟨_, hr⟩ | ⟨_, rfl, rfl, rfl⟩
    · rcases runs_roll hr with ⟨h3, _⟩ | ⟨h3, _⟩
      · cases h3
      · rw [hd] at h3; cases h3
    · rcases runs_append ha with ⟨h3, _⟩ | ⟨t4, rw4, d4, t5, hc, hp, _⟩
      · rw [hd] at h3; cases h3
      · rcases hc with ⟨h3, _⟩ | ⟨_, _, rfl, rfl⟩
        · rw [hd] at h3; cases h3
        · rcases runs_put hp with ⟨h3, _⟩ | ⟨_, _, rfl, rfl, rfl⟩
          · rw [hd] at h3; cases h3
          · exact ⟨rfl, hd, rfl⟩

theorem not_handedOver_createFile {rw rw' : RW} {d d' : Disk} {tr : STrace} {ok : Bool} (h : Runs umask (c.createFile rw) d tr (ok, rw') d') : ¬ HandedOver tr := by
  rintro ⟨n, bs, r, hm⟩
  have := Prog.All.runs (all_createFile c rw) h _ hm
  exact this

theorem not_beganRoll_append {rw rw' : RW} {bs : Bytes} {d d' : Disk} {tr : STrace} {res : Nat × Bool} (h : Runs umask (c.append rw bs) d tr (res, rw') d') : ¬ BeganRoll tr := by
  have hc : ∀ {t ok rw1 d1} {u : STrace}, Runs umask (c.createFile rw) d t (ok, rw1) d1 → ¬ BeganRoll (t ++ u) := by
    intro t ok rw1 d1 u h
    rw [RCfg.createFile] at h
    cases h with
    | call _ _ => exact fun h => h
  rcases runs_append h with ⟨_, h, _⟩ | ⟨t1, rw1, d1, t2, h1, h2, rfl⟩
  · simpa using hc (u := []) h
  · rcases h1 with ⟨_, h1⟩ | ⟨_, rfl, _, _⟩
    · exact hc h1
    · rcases runs_put h2 with ⟨_, rfl, _⟩ | ⟨_, rfl, _⟩ <;> exact fun h => h

/-- How the end of a write leaves the writer. -/
theorem append_state {rw rw' : RW} {bs : Bytes} {d d' : Disk} {tr : STrace} {res : Nat × Bool} (hdead : rw.file ≠ some .dead) (h : Runs umask (c.append rw bs) d tr (res, rw') d') :
    rw'.timeName = rw.timeName ∧ ((HandedOver tr ∧ rw'.file = some .opened) ∨ (¬ HandedOver tr ∧ res = (0, false) ∧ rw.file = none ∧ rw'.file = none ∧ rw'.size = rw.size)) := by
  rcases runs_append h with ⟨hf, hc, rfl⟩ | ⟨t1, rw1, d1, t2, hc, hp, rfl⟩
  · obtain ⟨_, h2, h3, h4, h5⟩ := runs_createFile hc
    exact ⟨h5, .inr ⟨not_handedOver_createFile hc, rfl, hf, h3 rfl hf, h4 rfl⟩⟩
  · have ho : rw1.file = some .opened ∧ rw1.timeName = rw.timeName := by
      rcases hc with ⟨hf, hc⟩ | ⟨hf, _, rfl, _⟩
      · obtain ⟨h1, _, _, _, h5⟩ := runs_createFile hc
        obtain ⟨n, rfl, _⟩ := h1 rfl
        exact ⟨rfl, h5⟩
      · refine ⟨?_, rfl⟩
        cases hx : rw1.file with
        | none => exact absurd hx hf
        | some x =>
          cases x with
          | opened => rfl
          | dead => exact absurd hx hdead
    rcases runs_put hp with ⟨_, rfl, rfl, _⟩ | ⟨hn, _⟩
    · exact ⟨ho.2, .inl ⟨⟨_, _, _, List.mem_append_right _ (List.mem_singleton.mpr rfl)⟩, ho.1⟩⟩
    · exact absurd ho.1 hn

theorem not_handedOver_roll {rw rw' : RW} {d d' : Disk} {tr : STrace} {ok : Bool} (h : Runs umask (c.roll lib rw) d tr (ok, rw') d') : ¬ HandedOver tr := by
  rintro ⟨n, bs, r, hm⟩
  have := Prog.All.runs (all_roll (lib := lib) (c := c) (rw := rw) (own := fun _ => True) (fun _ => trivial) (fun _ _ _ => trivial) fun _ _ => trivial) h _ hm
  exact this

theorem handedOver_append {a b : STrace} : HandedOver (a ++ b) ↔ HandedOver a ∨ HandedOver b := by
  simp only [HandedOver, List.mem_append]
  constructor
  · rintro ⟨n, bs, r, h | h⟩
    · exact .inl ⟨n, bs, r, h⟩
    · exact .inr ⟨n, bs, r, h⟩
  · rintro (⟨n, bs, r, h⟩ | ⟨n, bs, r, h⟩)
    · exact ⟨n, bs, r, .inl h⟩
    · exact ⟨n, bs, r, .inr h⟩

/-- How a write leaves a size writer. -/
theorem size_state {max : Int} (hk : c.kind = .size max) {rw rw' : RW} {bs : Bytes} {d d' : Disk} {tr : STrace} {res : Nat × Bool} (hh : Healthy max rw)
    (h : Runs umask (c.write lib rw bs) d tr (res, rw') d') :
    (res.2 = false ∧ BeganRoll tr ∧ ¬ HandedOver tr ∧ Lost max rw') ∨ ((res.2 = true ∨ ¬ BeganRoll tr ∨ HandedOver tr) ∧ Healthy max rw') := by
  have hdead : rw.file ≠ some .dead := by rcases hh with h | ⟨h, _⟩ <;> rw [h] <;> simp
  obtain ⟨t1, b, rw1, d1, t2, rw2, d2, k1, k2⟩ := runs_write h
  obtain ⟨rfl, k3⟩ := runs_needsToRoll k1
  rcases k3 with ⟨max', hk', rfl, rfl, hb⟩ | ⟨_, _, hk', _⟩
  · rw [hk] at hk'; cases hk'
    have hroll : b = true → rw1.file = some .opened ∧ max ≤ rw1.size := by
      rintro rfl
      have : max ≤ rw1.size := by simpa using hb.symm
      rcases hh with h | ⟨_, h⟩
      · exact ⟨h, this⟩
      · omega
    have hbegan : ∀ {ok}, b = true → Runs umask (c.roll lib rw1) d1 t2 (ok, rw2) d2 → rw2.size = rw1.size ∧ ∀ u, BeganRoll (t2 ++ u) := by
      intro ok hb hr
      refine ⟨(Prog.Does.runs (does_roll (own := fun _ => True) (lib := lib) (c := c) (rw := rw1) (fun _ => trivial) (fun _ _ _ => trivial) fun _ _ => trivial) hr).2.2, ?_⟩
      rcases runs_roll hr with ⟨_, _, ⟨h3, _⟩ | ⟨_, rfl, _⟩ | ⟨_, rfl, _⟩⟩ | ⟨_, _, _, _, rfl, _⟩
      · exact absurd (hroll hb).1 h3
      all_goals exact fun _ => trivial
    rcases k2 with ⟨rfl, hr, rfl, rfl, rfl, rfl⟩ | ⟨hr, t3, ha, rfl⟩
    · obtain ⟨h1, h2⟩ := hbegan rfl hr
      have hno := (Prog.Does.runs (does_roll (own := fun _ => True) (lib := lib) (c := c) (rw := rw1) (fun _ => trivial) (fun _ _ _ => trivial) fun _ _ => trivial) hr).1
      refine .inl ⟨rfl, by simpa using h2 [], not_handedOver_roll hr, hno, ?_⟩
      rw [h1]; exact (hroll rfl).2
    · rcases hr with ⟨rfl, hr⟩ | ⟨rfl, rfl, rfl, rfl⟩
      · obtain ⟨h1, h2⟩ := hbegan rfl hr
        have hf2 : rw2.file = none := by
          rcases runs_roll hr with ⟨h3, _⟩ | ⟨_, _, _, _, _, ho⟩
          · cases h3
          · exact (Prog.Does.runs (does_rollOver (own := fun _ => True) (lib := lib) (c := c) (rw := { rw1 with file := none }) rfl trivial (fun _ _ => trivial) fun _ _ => trivial) ho).1
        obtain ⟨_, ⟨a1, a2⟩ | ⟨a1, rfl, _, a2, a3⟩⟩ := append_state (by rw [hf2]; simp) ha
        · exact .inr ⟨.inr (.inr (handedOver_append.mpr (.inr a1))), .inl a2⟩
        · refine .inl ⟨rfl, by simpa using h2 t3, ?_, by rw [a2]; simp, by rw [a3, h1]; exact (hroll rfl).2⟩
          simp only [List.nil_append, handedOver_append, not_or]
          exact ⟨not_handedOver_roll hr, a1⟩
      · obtain ⟨_, ⟨a1, a2⟩ | ⟨a1, rfl, a0, a2, a3⟩⟩ := append_state hdead ha
        · exact .inr ⟨.inr (.inr (by simpa using a1)), .inl a2⟩
        · refine .inr ⟨.inr (.inl (by simpa using not_beganRoll_append ha)), .inr ⟨a2, ?_⟩⟩
          rw [a3]
          simp at hb; omega
  · rw [hk] at hk'; cases hk'

theorem clocks_nil {tr : STrace} (h : ∀ x ∈ tr, x.1 ≠ .now) : clocks tr = [] := by
  induction tr with
  | nil => rfl
  | cons x xs ih =>
    obtain ⟨o, r⟩ := x
    have := ih fun y hy => h y (by simp [hy])
    have h0 := h ⟨o, r⟩ (by simp)
    cases o <;> simp_all [clocks]

/-- No file could not be closed, no directory could not be read. -/
def ClosesAndReads (tr : STrace) : Prop := (∀ n, (⟨.close n, false⟩ : (o : Sys) × o.Resp) ∉ tr) ∧ (⟨.readdir, none⟩ : (o : Sys) × o.Resp) ∉ tr

/-- How a write leaves a time writer. -/
theorem time_state {pat : Str} (hk : c.kind = .time pat) {rw rw' : RW} {bs : Bytes} {d d' : Disk} {tr : STrace} {res : Nat × Bool} (hdead : rw.file ≠ some .dead)
    (h : Runs umask (c.write lib rw bs) d tr (res, rw') d') (hcr : ClosesAndReads tr) (hf : res.2 = true ∨ ∃ x ∈ tr, Failed x) :
    rw'.file ≠ some .dead ∧ (HandedOver tr → rw'.file = some .opened) ∧ ∃ t, (clocks tr).getLast? = some t ∧ rw'.timeName = lib.format t pat := by
  obtain ⟨t1, b, rw1, d1, t2, rw2, d2, k1, k2⟩ := runs_write h
  obtain ⟨rfl, k3⟩ := runs_needsToRoll k1
  rcases k3 with ⟨_, hk', _⟩ | ⟨pat', t, hk', rfl, k3⟩
  · rw [hk] at hk'; cases hk'
  · rw [hk] at hk'; cases hk'
    have hd1 : rw1.file = rw.file := by rcases k3 with ⟨_, _, rfl⟩ | ⟨_, _, rfl⟩ <;> rfl
    have hclk : b = false → rw1.timeName = lib.format t pat := by
      rintro rfl
      rcases k3 with ⟨_, _, rfl⟩ | ⟨_, h, rfl⟩
      · rfl
      · have : lib.format t pat = rw1.timeName := by simpa using h.symm
        exact this.symm
    have hn1 : ¬ HandedOver ([⟨.now, t⟩] : STrace) := by rintro ⟨n, bs, r, hm⟩; simp at hm
    -- a roll that went as far as the renaming
    have hroll : ∀ {ok}, Runs umask (c.roll lib rw1) d1 t2 (ok, rw2) d2 → (rw1.file = some .opened ∨ t2 ≠ []) → (∀ n, (⟨.close n, false⟩ : (o : Sys) × o.Resp) ∉ t2) →
        (⟨.readdir, none⟩ : (o : Sys) × o.Resp) ∉ t2 → rw2.file = none ∧ ∃ t', (clocks t2).getLast? = some t' ∧ rw2.timeName = lib.format t' pat := by
      intro ok hr ho h1 h2
      rcases runs_roll hr with ⟨_, _, ⟨h3, rfl, _⟩ | ⟨_, rfl, _⟩ | ⟨_, rfl, _⟩⟩ | ⟨_, names, t4, _, rfl, hover⟩
      · rcases ho with ho | ho
        · exact absurd ho h3
        · exact absurd rfl ho
      · exact absurd (List.mem_singleton.mpr rfl) (h1 rw1.name)
      · exact absurd (by simp) h2
      · refine ⟨(Prog.Does.runs (does_rollOver (own := fun _ => True) (lib := lib) (c := c) (rw := { rw1 with file := none }) rfl trivial (fun _ _ => trivial) fun _ _ => trivial) hover).1, ?_⟩
        obtain ⟨tag, t5, h5, h6⟩ := runs_rollOver hover
        rcases h5 with ⟨_, h5, _⟩ | ⟨pat', t', hp, rfl, rfl, _⟩
        · rw [hk] at h5; cases h5
        · rw [hk] at hp; cases hp
          refine ⟨t', ?_, rfl⟩
          rcases h6 with ⟨_, rfl, _⟩ | ⟨_, _, _, _, t2, _, _, rfl, h7⟩
          · rfl
          · have : clocks t2 = [] := by
              rcases h7 with ⟨_, h7⟩ | ⟨_, rfl, _⟩
              · refine clocks_nil fun x hx he => ?_
                rcases Prog.All.runs (all_delete c _) h7 x hx with h | ⟨n, h⟩
                · rw [he] at h; cases h
                · rw [he] at h; cases h
              · rfl
            simp [clocks, clocks_append, this]
    have happ : ∀ {rw3 : RW} {t3 : STrace} {d3}, rw3.file ≠ some .dead → Runs umask (c.append rw3 bs) d3 t3 (res, rw') d' →
        rw'.file ≠ some .dead ∧ (HandedOver t3 → rw'.file = some .opened) ∧ rw'.timeName = rw3.timeName ∧ clocks t3 = [] := by
      intro rw3 t3 d3 hd ha
      have hcl : clocks t3 = [] := clocks_nil fun x hx he => by
        rcases runs_append ha with ⟨_, hc, _⟩ | ⟨t4, rw4, d4, t5, hc, hp, rfl⟩
        · have := Prog.All.runs (all_createFile c rw3) hc x hx; rw [he] at this; exact this
        · rcases List.mem_append.mp hx with hx | hx
          · rcases hc with ⟨_, hc⟩ | ⟨_, rfl, _⟩
            · have := Prog.All.runs (all_createFile c rw3) hc x hx; rw [he] at this; exact this
            · cases hx
          · rcases runs_put hp with ⟨_, rfl, _⟩ | ⟨_, rfl, _⟩
            · simp only [List.mem_singleton] at hx; rw [hx] at he; cases he
            · cases hx
      obtain ⟨a0, ⟨a1, a2⟩ | ⟨a1, _, _, a2, _⟩⟩ := append_state hd ha
      · exact ⟨by rw [a2]; simp, fun _ => a2, a0, hcl⟩
      · exact ⟨by rw [a2]; simp, fun h => absurd h a1, a0, hcl⟩
    rcases k2 with ⟨rfl, hr, rfl, rfl, rfl, rfl⟩ | ⟨hr, t3, ha, rfl⟩
    · have hne : t2 ≠ [] := by
        rintro rfl
        rcases hf with hf | ⟨x, hx, hf⟩
        · cases hf
        · simp only [List.append_nil, List.mem_singleton] at hx
          subst hx
          exact hf
      obtain ⟨h1, t', h2, h3⟩ := hroll hr (.inr hne) (fun n hm => hcr.1 n (List.mem_append_right _ hm)) fun hm => hcr.2 (List.mem_append_right _ hm)
      refine ⟨by rw [h1]; simp, fun h => ?_, t', ?_, h3⟩
      · rcases handedOver_append.mp h with h | h
        · exact absurd h hn1
        · exact absurd h (not_handedOver_roll hr)
      · rw [clocks_append, List.getLast?_append, h2]; rfl
    · rcases hr with ⟨rfl, hr⟩ | ⟨hb, rfl, rfl, rfl⟩
      · have hopen : rw1.file = some .opened := by
          rcases runs_roll hr with ⟨h3, _⟩ | ⟨h3, _⟩
          · cases h3
          · exact h3
        obtain ⟨h1, t', h2, h3⟩ := hroll hr (.inl hopen) (fun n hm => hcr.1 n (by simp [hm])) fun hm => hcr.2 (by simp [hm])
        obtain ⟨a1, a2, a3, a4⟩ := happ (by rw [h1]; simp) ha
        refine ⟨a1, fun h => ?_, t', ?_, by rw [a3, h3]⟩
        · rcases handedOver_append.mp h with h | h
          · rcases handedOver_append.mp h with h | h
            · exact absurd h hn1
            · exact absurd h (not_handedOver_roll hr)
          · exact a2 h
        · rw [clocks_append, clocks_append, a4, List.append_nil, List.getLast?_append, h2]; rfl
      · obtain ⟨a1, a2, a3, a4⟩ := happ (by rw [hd1]; exact hdead) ha
        refine ⟨a1, fun h => ?_, t, ?_, by rw [a3, hclk hb]⟩
        · rcases handedOver_append.mp h with h | h
          · exact absurd (by simpa using h) hn1
          · exact a2 h
        · rw [List.append_nil, clocks_append, a4]; rfl

theorem append_hands {rw rw' : RW} {bs : Bytes} {d d' : Disk} {tr : STrace} {res : Nat × Bool} (h : Runs umask (c.append rw bs) d tr (res, rw') d') :
    rw'.timeName = rw.timeName ∧ (HandedOver tr ↔ rw'.file = some .opened) := by
  by_cases hd : rw.file = some .dead
  · rcases runs_append h with ⟨hf, _⟩ | ⟨t1, rw1, d1, t2, hc, hp, rfl⟩
    · rw [hd] at hf; cases hf
    · rcases hc with ⟨hf, _⟩ | ⟨_, rfl, rfl, _⟩
      · rw [hd] at hf; cases hf
      · rcases runs_put hp with ⟨hf, _⟩ | ⟨_, rfl, _, rfl, _⟩
        · rw [hd] at hf; cases hf
        · refine ⟨rfl, fun h => ?_, fun h => ?_⟩
          · obtain ⟨_, _, _, hm⟩ := h; cases hm
          · rw [hd] at h; cases h
  · obtain ⟨a0, ⟨a1, a2⟩ | ⟨a1, _, _, a2, _⟩⟩ := append_state hd h
    · exact ⟨a0, fun _ => a2, fun _ => a1⟩
    · exact ⟨a0, fun h => absurd h a1, fun h => by rw [a2] at h; cases h⟩

theorem mem_clocks {t : Int} {tr : STrace} (h : (⟨.now, t⟩ : (o : Sys) × o.Resp) ∈ tr) : t ∈ clocks tr := by
  obtain ⟨a, b, rfl⟩ := List.append_of_mem h
  simp [clocks_append, clocks]

/-- How any write leaves a time writer: it has the file open just if the message was handed over, and the period it
believes in is one it has read off the clock. -/
theorem time_leaves {pat : Str} (hk : c.kind = .time pat) {rw rw' : RW} {bs : Bytes} {d d' : Disk} {tr : STrace} {res : Nat × Bool}
    (h : Runs umask (c.write lib rw bs) d tr (res, rw') d') :
    (HandedOver tr ↔ rw'.file = some .opened) ∧ (rw'.timeName = rw.timeName ∧ rw.timeName ≠ [] ∨ ∃ t ∈ clocks tr, rw'.timeName = lib.format t pat) := by
  obtain ⟨t1, b, rw1, d1, t2, rw2, d2, k1, k2⟩ := runs_write h
  obtain ⟨rfl, k3⟩ := runs_needsToRoll k1
  rcases k3 with ⟨_, hk', _⟩ | ⟨pat', t, hk', rfl, k3⟩
  · rw [hk] at hk'; cases hk'
  · rw [hk] at hk'; cases hk'
    have hn1 : ∀ {u}, HandedOver ([⟨.now, t⟩] ++ u : STrace) ↔ HandedOver u := by
      intro u
      rw [handedOver_append]
      refine ⟨fun h => h.elim ?_ id, .inr⟩
      rintro ⟨n, bs, r, hm⟩; simp at hm
    have hname : rw1.timeName = rw.timeName ∧ rw.timeName ≠ [] ∨ rw1.timeName = lib.format t pat := by
      rcases k3 with ⟨_, _, rfl⟩ | ⟨h, _, rfl⟩
      · exact .inr rfl
      · exact .inl ⟨rfl, h⟩
    have hroll : ∀ {ok}, Runs umask (c.roll lib rw1) d1 t2 (ok, rw2) d2 → rw2.timeName = rw1.timeName ∨ ∃ t ∈ clocks t2, rw2.timeName = lib.format t pat := by
      intro ok hr
      rcases runs_roll hr with ⟨_, _, ⟨_, _, rfl⟩ | ⟨_, _, rfl⟩ | ⟨_, _, rfl⟩⟩ | ⟨_, names, t4, _, rfl, hover⟩
      · exact .inl rfl
      · exact .inl rfl
      · exact .inl rfl
      · obtain ⟨tag, t5, h5, h6⟩ := runs_rollOver hover
        rcases h5 with ⟨_, h5, _⟩ | ⟨pat', t', hp, rfl, rfl, _⟩
        · rw [hk] at h5; cases h5
        · rw [hk] at hp; cases hp
          refine .inr ⟨t', mem_clocks ?_, rfl⟩
          rcases h6 with ⟨_, rfl, _⟩ | ⟨_, _, _, _, t2, _, _, rfl, h7⟩ <;> simp
    have hall : ∀ {u : STrace}, (rw2.timeName = rw1.timeName ∨ ∃ t ∈ clocks t2, rw2.timeName = lib.format t pat) →
        (rw2.timeName = rw.timeName ∧ rw.timeName ≠ [] ∨ ∃ t' ∈ clocks ([⟨.now, t⟩] ++ t2 ++ u : STrace), rw2.timeName = lib.format t' pat) := by
      intro u h
      rcases h with h | ⟨t', h1, h2⟩
      · rw [h]
        rcases hname with h | h
        · exact .inl h
        · exact .inr ⟨t, by simp [clocks_append, clocks], h⟩
      · exact .inr ⟨t', by rw [clocks_append, clocks_append]; exact List.mem_append_left _ (List.mem_append_right _ h1), h2⟩
    rcases k2 with ⟨rfl, hr, rfl, rfl, rfl, rfl⟩ | ⟨hr, t3, ha, rfl⟩
    · refine ⟨?_, by simpa using hall (u := []) (hroll hr)⟩
      rw [hn1]
      refine ⟨fun h => absurd h (not_handedOver_roll hr), fun h => ?_⟩
      have hno := (Prog.Does.runs (does_roll (own := fun _ => True) (lib := lib) (c := c) (rw := rw1) (fun _ => trivial) (fun _ _ _ => trivial) fun _ _ => trivial) hr).1
      exact absurd h hno
    · obtain ⟨a1, a2⟩ := append_hands ha
      rw [List.append_assoc, hn1, a1, ← a2, ← List.append_assoc]
      rcases hr with ⟨rfl, hr⟩ | ⟨_, rfl, rfl, rfl⟩
      · refine ⟨?_, hall (hroll hr)⟩
        rw [handedOver_append]
        exact ⟨fun h => h.elim (fun h => absurd h (not_handedOver_roll hr)) id, .inr⟩
      · exact ⟨by simp, hall (.inl rfl)⟩

/-- How any writes leave a time writer. -/
theorem time_after {pat : Str} (hk : c.kind = .time pat) {d0 d : Disk} {ws : List (STrace × (Nat × Bool))} {rw : RW} (h : Tries umask lib c d0 ws d rw) :
    (ws = [] ∧ rw = {}) ∨ ∃ w, ws.getLast? = some w ∧ (HandedOver w.1 ↔ rw.file = some .opened) ∧ ∃ v ∈ ws, ∃ t ∈ clocks v.1, rw.timeName = lib.format t pat := by
  induction h with
  | start => exact .inl ⟨rfl, rfl⟩
  | @write ws d rw m tr res rw' d' _ hr ih =>
    obtain ⟨h1, h2⟩ := time_leaves hk hr
    refine .inr ⟨(tr, res), by simp, h1, ?_⟩
    rcases h2 with ⟨h2, h3⟩ | ⟨t, ht, h2⟩
    · rcases ih with ⟨_, rfl⟩ | ⟨_, _, _, v, hv, t, ht, h4⟩
      · exact absurd rfl h3
      · exact ⟨v, by simp [hv], t, ht, by rw [h2, h4]⟩
    · exact ⟨(tr, res), by simp, t, ht, h2⟩

end Log4g
