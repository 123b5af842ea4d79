import Verif.Lemmas.Rolling

/-! # The two kinds of rolling writer -/

namespace Log4g
open Spec Strconv

variable {lib : RLib} {c : RCfg} {S : Prop}

theorem clocks_append (a b : STrace) : clocks (a ++ b) = clocks a ++ clocks b := by
  induction a with
  | nil => rfl
  | cons x xs ih =>
    obtain ⟨o, r⟩ := x
    cases o <;> simp [clocks, ih]

/-- The number of the next backup. -/
theorem next_number {max : Int} (hk : c.kind = .size max) {hs : List Str} {d : Dir} (hb : Backups lib c d hs) {m : Int}
    (hm : ∀ n ∈ hs, ∀ v, Backup lib c n v → v ≤ m) (h0 : 0 ≤ m) (h1 : m + 1 < 2 ^ 63) :
    ∃ v : Int, v ≤ m + 1 ∧ Tag lib c.kind (itoa (wrap64 ((match hs.getLast? with
      | some latest => (atoi (c.getFileRollName latest)).1
      | none => 0) + 1))) v ∧ ∀ n ∈ hs, ∀ w, Backup lib c n w → w < v := by
  rcases List.eq_nil_or_concat hs with e | ⟨hs', l, e⟩
  · subst e
    refine ⟨1, by omega, ?_, by simp⟩
    simp only [List.getLast?_nil]
    rw [hk, wrap64_small (by omega) (by omega)]
    exact .size (decimal_itoa _) (by omega) (by omega)
  · rw [List.concat_eq_append] at e
    subst e
    obtain ⟨⟨v, hv⟩, _⟩ := (hb.all l).mp (by simp)
    have hv' := ((backup_iff lib c l v).mp hv).2
    have hkey := backup_key hv
    simp only [RCfg.key, hk] at hkey
    rw [hk] at hv'
    have hvm := hm l (by simp) v hv
    cases hv' with
    | size _ hlo hhi =>
      refine ⟨v + 1, by omega, ?_, ?_⟩
      · simp only [List.getLast?_concat, hkey]
        rw [hk, wrap64_small (by omega) (by omega)]
        exact .size (decimal_itoa _) (by omega) (by omega)
      · intro n hn w hw
        rcases List.mem_append.mp hn with hn | hn
        · have := (List.pairwise_append.mp hb.order).2.2 n hn l (by simp) w v hw hv
          omega
        · simp only [List.mem_singleton] at hn; subst hn
          rw [backup_unique hw hv]; omega

/-- Backups numbered at most `B` at first. -/
def NumbersUpTo (lib : RLib) (c : RCfg) (B : Int) (tr : STrace) (hs : List Str) : Prop :=
  ∀ n ∈ hs, ∀ v, Backup lib c n v → v ≤ B + rolls tr

theorem rolls_le (tr : STrace) (x : (o : Sys) × o.Resp) : rolls tr ≤ rolls (tr ++ [x]) := by rw [rolls_append]; omega

theorem mem_without {as bs : List Str} {n m : Str} (h : m ∈ as ++ bs) : m ∈ as ++ n :: bs := by
  rcases List.mem_append.mp h with h | h <;> simp [h]

/-- Every file that has been rolled had reached the limit. -/
def RolledFull (max : Int) (c0 : List Bytes) (tr : STrace) : Prop := ∀ g ∈ (cuts c0 tr).1, max ≤ g.flatten.length

theorem cuts_still {x : (o : Sys) × o.Resp} (hx : isRoll x = false) (s : List (List Bytes) × List Bytes) :
    (cutStep s x).1 = s.1 ∧ s.2.flatten.length ≤ (cutStep s x).2.flatten.length := by
  obtain ⟨o, r⟩ := x
  cases o <;> try exact ⟨rfl, Nat.le_refl _⟩
  case write => exact ⟨rfl, by simp [cutStep]⟩
  case rename =>
    simp only [isRoll] at hx
    subst hx
    exact ⟨rfl, Nat.le_refl _⟩

theorem sizePlan {umask : Nat} {max : Int} (hk : c.kind = .size max) (F0 : List Bytes × List Bytes) {B : Int} (hB : 0 ≤ B) :
    Plan umask lib c S F0 (fun tr => (S → RemovesOk tr) ∧ B + rolls tr < 2 ^ 63) (fun tr hs => NumbersUpTo lib c B tr hs ∧ RolledFull max F0.2 tr)
      (fun _ _ _ => True) (fun tr _ _ => max ≤ (cuts F0.2 tr).2.flatten.length) where
  removes s tr n r h := h.1 s n r (by simp)
  xmono tr x hs hx h _ := by
    refine ⟨fun n hn v hv => ?_, fun g hg => h.2 g ?_⟩
    · have := h.1 n hn v hv
      have := rolls_le tr x
      omega
    · rw [cuts_snoc, (cuts_still hx _).1] at hg
      exact hg
  xdrop tr as n bs h := ⟨fun m hm => h.1 m (mem_without hm), h.2⟩
  ymono := by intros; trivial
  zmono tr x rw hs hx h _ := by
    have := (cuts_still hx (cuts F0.2 tr)).2
    rw [cuts_snoc]
    omega
  yfresh := by intros; trivial
  yfile := by intros; trivial
  zfile tr rw rw' hs _ h := h
  ydrop := by intros; trivial
  need rw hs tr d h _ hkn := by
    rw [RCfg.needsToRoll, hk]
    refine ⟨h, rfl, rfl, rfl, rfl, trivial, fun hb hf => ?_⟩
    obtain ⟨_, data, p, hd, hz⟩ := hkn hf
    have hcur := h.1.cur
    rw [current_file hd] at hcur
    rcases hcur with ⟨e, _⟩ | e
    · cases e
    · injection e with e
      rw [← e]
      simp only [decide_eq_true_eq] at hb
      omega
  new rw hs tr d h _ hz := by
    rw [RCfg.getNewHistoryRollFileName, hk]
    refine ⟨h, rfl, rfl, rfl, rfl, trivial, ?_⟩
    intro a b hg
    have hr : rolls (tr ++ [⟨.rename a b, true⟩]) = rolls tr + 1 := by rw [rolls_append]; simp [rolls]
    rw [hr] at hg
    obtain ⟨v, h1, h2, h3⟩ := next_number hk h.1.backups (m := B + rolls tr) h.2.1 (by omega) (by omega)
    rw [hk] at h2
    refine ⟨v, h2, h3, ⟨?_, ?_⟩, trivial⟩
    · intro n hn w hw
      rw [hr]
      rcases List.mem_append.mp hn with hn | hn
      · have := h.2.1 n hn w hw; omega
      · simp only [List.mem_singleton] at hn; subst hn
        have : w = v := backup_unique hw ⟨_, rfl, by rw [hk]; exact h2⟩
        omega
    · intro g hg
      rw [cuts_snoc] at hg
      rcases List.mem_append.mp (show g ∈ (cuts F0.2 tr).1 ++ [(cuts F0.2 tr).2] from hg) with hg | hg
      · exact h.2.2 g hg
      · simp only [List.mem_singleton] at hg
        rw [hg]
        exact hz

/-- Backups are of periods before whatever the clock may show next. -/
def Earlier (lib : RLib) (c : RCfg) (start : Int → Int) (T0 T1 : Int) (tr : STrace) (hs : List Str) : Prop :=
  ∀ t, (∀ s ∈ clocks tr, s ≤ t) → T0 ≤ t → t ≤ T1 → ∀ n ∈ hs, ∀ v, Backup lib c n v → v < start t

/-- The writer is in a period after all backups. -/
def InPeriod (lib : RLib) (c : RCfg) (pat : Str) (start : Int → Int) (tr : STrace) (rw : RW) (hs : List Str) : Prop :=
  rw.timeName = [] ∨ ∃ t0, rw.timeName = lib.format t0 pat ∧ t0 ∈ clocks tr ∧ ∀ n ∈ hs, ∀ v, Backup lib c n v → v < start t0

/-- That period has ended. -/
def PeriodOver (lib : RLib) (c : RCfg) (pat : Str) (start : Int → Int) (T0 T1 : Int) (tr : STrace) (rw : RW) (hs : List Str) : Prop :=
  ∃ t0 t1, rw.timeName = lib.format t0 pat ∧ (T0 ≤ t0 ∧ t0 ≤ T1) ∧ t1 ∈ clocks tr ∧ start t0 < start t1 ∧ ∀ n ∈ hs, ∀ v, Backup lib c n v → v < start t0

theorem timePlan {umask : Nat} {pat : Str} (hk : c.kind = .time pat) (F0 : List Bytes × List Bytes) {start : Int → Int} {T0 T1 : Int} (hp : Periods lib pat start T0 T1) :
    Plan umask lib c S F0 (fun tr => (S → RemovesOk tr) ∧ (clocks tr).Pairwise (· ≤ ·) ∧ ∀ t ∈ clocks tr, T0 ≤ t ∧ t ≤ T1) (Earlier lib c start T0 T1)
      (InPeriod lib c pat start) (PeriodOver lib c pat start T0 T1) where
  removes s tr n r h := h.1 s n r (by simp)
  xmono tr x hs _ h _ := fun t ht h0 h1 => h t (fun s hs => ht s (by rw [clocks_append]; simp [hs])) h0 h1
  xdrop tr as n bs h := fun t ht h0 h1 m hm => h t ht h0 h1 m (mem_without hm)
  ymono tr x rw hs h _ := by
    rcases h with h | ⟨t0, h1, h2, h3⟩
    · exact .inl h
    · exact .inr ⟨t0, h1, by rw [clocks_append]; simp [h2], h3⟩
  zmono tr x rw hs _ h _ := by
    obtain ⟨t0, t1, h1, h0, h2, h3⟩ := h
    exact ⟨t0, t1, h1, h0, by rw [clocks_append]; simp [h2], h3⟩
  yfresh tr hs _ := .inl rfl
  yfile tr rw rw' hs e h := by unfold InPeriod; rw [e]; exact h
  zfile tr rw rw' hs e h := by unfold PeriodOver; rw [e]; exact h
  ydrop tr rw as n bs h := by
    rcases h with h | ⟨t0, h1, h2, h3⟩
    · exact .inl h
    · exact .inr ⟨t0, h1, h2, fun m hm => h3 m (mem_without hm)⟩
  need rw hs tr d h hy _ := by
    rw [RCfg.needsToRoll, hk]
    rw [wp_bind, wp_sys]
    intro t d1 hs1 hg1
    have hsort := hg1.2.1
    simp only [SysStep] at hs1
    subst hs1
    have hcl : clocks (tr ++ [⟨.now, t⟩]) = clocks tr ++ [t] := by rw [clocks_append]; rfl
    have h1 : Held lib c S F0 (Earlier lib c start T0 T1) hs (tr ++ [⟨.now, t⟩]) d1 :=
      ⟨h.1.same rfl (by rw [cuts_snoc]; rfl), fun t' ht h0 h1 => h.2 t' (fun s hs => ht s (by rw [hcl]; simp [hs])) h0 h1⟩
    rw [hcl] at hsort
    have hlast : ∀ s ∈ clocks tr, s ≤ t := fun s hs => (List.pairwise_append.mp hsort).2.2 s hs t (by simp)
    have hT : T0 ≤ t ∧ t ≤ T1 := hg1.2.2 t (by rw [hcl]; simp)
    refine ⟨⟨hs, h1⟩, ?_⟩
    dsimp only
    split
    · refine ⟨h1, rfl, rfl, rfl, rfl, .inr ⟨t, rfl, by rw [hcl]; simp, h.2 t hlast hT.1 hT.2⟩, fun hb _ => by cases hb⟩
    · rename_i hne
      rcases hy with hy | ⟨t0, e0, hmem, hlt⟩
      · exact absurd hy hne
      · refine ⟨h1, rfl, rfl, rfl, rfl, .inr ⟨t0, e0, by rw [hcl]; simp [hmem], hlt⟩, ?_⟩
        intro hb _
        have hT0 : T0 ≤ t0 ∧ t0 ≤ T1 := hg1.2.2 t0 (by rw [hcl]; simp [hmem])
        refine ⟨t0, t, e0, hT0, by rw [hcl]; simp, ?_, hlt⟩
        have hle := hp.mono t0 t hT0.1 (hlast t0 hmem) hT.2
        have : start t0 ≠ start t := by
          intro he
          have := hp.same _ _ hT0.1 (hlast t0 hmem) hT.2 he
          simp [e0, this] at hb
        omega
  new rw hs tr d h hy hz := by
    obtain ⟨t0, t1, e0, hT0, hm1, hlt1, hlt⟩ := hz
    rw [RCfg.getNewHistoryRollFileName, hk]
    rw [wp_bind, wp_sys]
    intro t d1 hs1 hg1
    have hsort := hg1.2.1
    simp only [SysStep] at hs1
    subst hs1
    have hcl : clocks (tr ++ [⟨.now, t⟩]) = clocks tr ++ [t] := by rw [clocks_append]; rfl
    have h1 : Held lib c S F0 (Earlier lib c start T0 T1) hs (tr ++ [⟨.now, t⟩]) d1 :=
      ⟨h.1.same rfl (by rw [cuts_snoc]; rfl), fun t' ht h0 h1 => h.2 t' (fun s hs => ht s (by rw [hcl]; simp [hs])) h0 h1⟩
    rw [hcl] at hsort
    have hlast : ∀ s ∈ clocks tr, s ≤ t := fun s hs => (List.pairwise_append.mp hsort).2.2 s hs t (by simp)
    have hT : T0 ≤ t ∧ t ≤ T1 := hg1.2.2 t (by rw [hcl]; simp)
    have ht1 : start t1 ≤ start t := hp.mono _ _ (hg1.2.2 t1 (by rw [hcl]; simp [hm1])).1 (hlast t1 hm1) hT.2
    refine ⟨⟨hs, h1⟩, h1, rfl, rfl, rfl, rfl, .inr ⟨t, rfl, by rw [hcl]; simp, fun n hn v hv => by have := hlt n hn v hv; omega⟩, ?_⟩
    intro a b hg
    have htag : Tag lib c.kind (lib.format t0 pat) (start t0) := by rw [hk]; exact .time (hp.nonempty t0 hT0.1 hT0.2) (hp.parse t0 hT0.1 hT0.2)
    dsimp only
    rw [e0, ← hk]
    have hall : ∀ n ∈ hs ++ [backupName c.mode c.fileName (lib.format t0 pat)], ∀ v, Backup lib c n v → v ≤ start t0 := by
      intro n hn v hv
      rcases List.mem_append.mp hn with hn | hn
      · exact Int.le_of_lt (hlt n hn v hv)
      · simp only [List.mem_singleton] at hn; subst hn
        rw [backup_unique hv ⟨_, rfl, htag⟩]; omega
    refine ⟨start t0, htag, hlt, ?_, ?_⟩
    · intro t' ht' _ h1' n hn v hv
      have := hall n hn v hv
      have := hp.mono t t' hT.1 (ht' t (by rw [clocks_append, hcl]; simp)) h1'
      omega
    · refine .inr ⟨t, rfl, by rw [clocks_append, hcl]; simp, fun n hn v hv => ?_⟩
      have := hall n hn v hv
      omega

end Log4g
