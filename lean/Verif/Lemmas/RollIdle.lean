import Verif.Lemmas.RollTimes

/-! # Writes of nothing -/

namespace Log4g
open Spec Strconv

variable {lib : RLib} {c : RCfg} {umask : Nat}

/-- The size writer will not roll before something is written. -/
def Spent (max : Int) (c : RCfg) (rw : RW) (d : Disk) : Prop := Lost max rw ∨ rw.file = some .opened ∧ dataOf d.dir c.fileName = []

theorem data_same {d d' : Dir} {res : Nat × Bool} (h1 : ∀ n, n ≠ c.fileName → d' n = d n) (h2 : Appended umask c d d' [] res) (n : Str) : dataOf d' n = dataOf d n := by
  by_cases hn : n = c.fileName
  · subst hn; rw [appended_data h2]; simp
  · simp [dataOf, h1 n hn]

/-- What the writing of nothing does with size rolling. -/
theorem empty_size_write {max : Int} (hk : c.kind = .size max) (hmax : 0 < max) {rw rw' : RW} {d d' : Disk} {tr : STrace} {res : Nat × Bool} (hkn : Knows c rw d)
    (h : Runs umask (c.write lib rw []) d tr (res, rw') d') :
    (Spent max c rw d → rolls tr = 0 ∧ Spent max c rw' d') ∧ (rolls tr = 1 → Spent max c rw' d') ∧ rolls tr ≤ 1 ∧ (rolls tr = 0 → ∀ n, dataOf d'.dir n = dataOf d.dir n) := by
  have hroll1 : ∀ {t0 rw1}, Runs umask (c.needsToRoll lib rw) d t0 (true, rw1) d → rw1 = rw ∧ max ≤ rw.size := by
    intro t0 rw1 hn
    obtain ⟨_, k3⟩ := runs_needsToRoll hn
    rcases k3 with ⟨max', hk', _, rfl, hb⟩ | ⟨_, _, hk', _⟩
    · rw [hk] at hk'; cases hk'
      exact ⟨rfl, by simpa using hb.symm⟩
    · rw [hk] at hk'; cases hk'
  have hcase : rolls tr = 1 → Spent max c rw' d' ∧ rw.file = some .opened ∧ max ≤ rw.size := by
    intro hr
    rcases write_cases (knows_name hkn) h with ⟨h1, _⟩ | ⟨t0, rw1, names, t1, rw2, d2, t2, hneed, hf, hname, hrd, ho, hf2, ha, htr⟩
    · rw [rolls_zero' h1] at hr; cases hr
    · obtain ⟨rfl, hsz⟩ := hroll1 hneed
      refine ⟨?_, hf, hsz⟩
      obtain ⟨_, data, p, he, _⟩ := hkn hf
      obtain ⟨_, _, _, _, hc1, _⟩ := rolled_dir (rw := { rw1 with file := none }) hname ho he
      have hz := (Prog.Does.runs (does_rollOver (own := fun _ => True) (lib := lib) (c := c) (rw := { rw1 with file := none }) rfl trivial (fun _ _ => trivial) fun _ _ => trivial) ho).2.2
      obtain ⟨_, _, a3, _⟩ := append_dir (c := c) (rw := rw2) (fun hx => by rw [hf2] at hx; cases hx) ha
      obtain ⟨_, ⟨_, a2⟩ | ⟨_, _, _, a2, a4⟩⟩ := append_state (by rw [hf2]; simp) ha
      · exact .inr ⟨a2, by rw [appended_data a3]; simp [dataOf, hc1]⟩
      · refine .inl ⟨by rw [a2]; simp, ?_⟩
        rw [a4, hz]; exact hsz
  obtain ⟨hk', _, hd⟩ := write_dir hkn h
  have hle : rolls tr ≤ 1 := by
    rcases hd with ⟨hz, _⟩ | ⟨_, _, _, _, _, hz, _⟩ <;> omega
  have hzero : rolls tr = 0 → ∀ n, dataOf d'.dir n = dataOf d.dir n := by
    intro hr
    rcases hd with ⟨_, h1, h2⟩ | ⟨_, _, _, _, _, hz, _⟩
    · exact data_same h1 h2
    · omega
  refine ⟨fun hs => ?_, fun hr => (hcase hr).1, hle, hzero⟩
  rcases hs with hl | ⟨ho, hdat⟩
  · obtain ⟨rfl, _, rfl, rfl⟩ := lost_write hk hl h
    exact ⟨rfl, .inl hl⟩
  · obtain ⟨_, data, p, he, hz⟩ := hkn ho
    have hsz : rw.size = 0 := by
      simp only [dataOf, he] at hdat
      rw [hz, hdat]; rfl
    have hr0 : rolls tr = 0 := by
      rcases Nat.lt_or_ge (rolls tr) 1 with h1 | h1
      · omega
      · obtain ⟨_, _, h2⟩ := hcase (by omega)
        omega
    refine ⟨hr0, .inr ⟨?_, by rw [hzero hr0, hdat]⟩⟩
    have hs := size_state hk (.inl ho) h
    obtain ⟨t1, b, rw1, d1, t2, rw2, d2, k1, k2⟩ := runs_write h
    obtain ⟨rfl, k3⟩ := runs_needsToRoll k1
    rcases k3 with ⟨max', hk', _, rfl, hb⟩ | ⟨_, _, hk', _⟩
    · rw [hk] at hk'; cases hk'
      have hb : b = false := by rw [hb]; simp; omega
      subst hb
      rcases k2 with ⟨hx, _⟩ | ⟨⟨hx, _⟩ | ⟨_, rfl, rfl, rfl⟩, t3, ha, rfl⟩
      · cases hx
      · cases hx
      · obtain ⟨_, ⟨_, a2⟩ | ⟨_, _, a2, _⟩⟩ := append_state (by rw [ho]; simp) ha
        · exact a2
        · rw [ho] at a2; cases a2
    · rw [hk] at hk'; cases hk'

theorem later_knows {d d' : Disk} {rw rw' : RW} {ms : List Bytes} {tr : STrace} {rs : List (Nat × Bool)} (hkn : Knows c rw d) (h : Later umask lib c d rw ms tr rs d' rw') : Knows c rw' d' := by
  induction h with
  | start => exact hkn
  | write _ hr ih => exact (write_dir ih hr).1

theorem idle_size {max : Int} (hk : c.kind = .size max) (hmax : 0 < max) {rw rw' : RW} {d d' : Disk} {ms : List Bytes} {tr : STrace} {rs : List (Nat × Bool)} (hkn : Knows c rw d)
    (h : Later umask lib c d rw ms tr rs d' rw') (hms : ∀ m ∈ ms, m = []) :
    rolls tr ≤ 1 ∧ (rolls tr = 1 → Spent max c rw' d') ∧ (rolls tr = 0 → ∀ n, dataOf d'.dir n = dataOf d.dir n) := by
  induction h with
  | start => exact ⟨by simp [rolls], by simp [rolls], fun _ _ => rfl⟩
  | @write ms tr rs d1 rw1 m tr' res rw2 d2 hl hr ih =>
    obtain ⟨i1, i2, i3⟩ := ih fun m hm => hms m (by simp [hm])
    have hm : m = [] := hms m (by simp)
    subst hm
    obtain ⟨e1, e2, e3, e4⟩ := empty_size_write hk hmax (later_knows hkn hl) hr
    rw [rolls_append]
    rcases Nat.eq_zero_or_pos (rolls tr) with h0 | h0
    · rw [h0, Nat.zero_add]
      exact ⟨e3, e2, fun hz n => by rw [e4 hz n, i3 h0 n]⟩
    · have h1 : rolls tr = 1 := by omega
      obtain ⟨g1, g2⟩ := e1 (i2 h1)
      rw [h1, g1]
      exact ⟨Nat.le_refl _, fun _ => g2, by simp⟩

theorem idle_time {pat : Str} (hk : c.kind = .time pat) {rw rw' : RW} {d d' : Disk} {ms : List Bytes} {tr : STrace} {rs : List (Nat × Bool)} (hkn : Knows c rw d)
    (h : Later umask lib c d rw ms tr rs d' rw') (hms : ∀ m ∈ ms, m = []) (hcl : ∀ t ∈ clocks tr, lib.format t pat = rw.timeName) :
    rw'.timeName = rw.timeName ∧ rolls tr = 0 ∧ ∀ n, dataOf d'.dir n = dataOf d.dir n := by
  induction h with
  | start => exact ⟨rfl, rfl, fun _ => rfl⟩
  | @write ms tr rs d1 rw1 m tr' res rw2 d2 hl hr ih =>
    rw [clocks_append] at hcl
    obtain ⟨i1, i2, i3⟩ := ih (fun m hm => hms m (by simp [hm])) fun t ht => hcl t (by simp [ht])
    have hm : m = [] := hms m (by simp)
    subst hm
    have hkn1 := later_knows hkn hl
    obtain ⟨t, ⟨_, u, rfl, ha⟩ | ⟨_, h2, h3⟩⟩ := time_write hk (knows_name hkn1) hr
    · have ht := hcl t (by simp [clocks])
      obtain ⟨_, a2, a3, _⟩ := append_dir (c := c) (rw := { rw1 with timeName := lib.format t pat }) (fun hx => hkn1 hx) ha
      refine ⟨by rw [append_timeName ha]; exact ht, ?_, fun n => by rw [data_same a2 a3 n, i3 n]⟩
      rw [rolls_append, i2]
      simp only [rolls, Nat.zero_add]
      exact rolls_zero fun x hx a b => (append_still ha x hx).2 a b
    · have ht : t ∈ clocks tr' := by
        rcases h3 with ⟨_, _, _, ⟨rfl, _⟩ | ⟨_, rfl | rfl⟩⟩ | ⟨names, t2, _, _, ⟨_, _, _, rfl⟩ | ⟨_, _, _, u, v, _, _, _, rfl, _⟩⟩ <;> simp [clocks]
      exact absurd ((hcl t (by simp [ht])).trans i1.symm) h2

end Log4g
