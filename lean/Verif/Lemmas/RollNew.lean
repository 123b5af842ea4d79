import Verif.Lemmas.RollPlans
import Verif.Lemmas.RollSize

/-! # The names rolls give -/

namespace Log4g
open Spec Strconv

variable {lib : RLib} {c : RCfg} {umask : Nat}

theorem deleteOldRolls_norename {hs : List Str} {d d' : Disk} {tr : STrace} (h : Runs umask (c.deleteOldRolls hs) d tr () d') {x : (o : Sys) × o.Resp} (hx : x ∈ tr)
    (a b : Str) : x.1 ≠ .rename a b := by
  obtain ⟨t1, d1, t2, _, hq, hr, rfl, _⟩ := runs_deleteOldRolls h
  obtain ⟨_, h2, _⟩ := runs_removeAll hr
  intro he
  rcases List.mem_append.mp hx with hx | hx
  · have := hq x hx; rw [he] at this; cases this
  · obtain ⟨n, _, e⟩ := h2 x hx; rw [he] at e; cases e

/-- What is renamed in a write, and to what. -/
theorem write_rename {rw rw' : RW} {bs : Bytes} {d d' : Disk} {tr : STrace} {res : Nat × Bool} (hn : rw.file = some .opened → rw.name = c.fileName)
    (h : Runs umask (c.write lib rw bs) d tr (res, rw') d') {a b : Str} {r : Bool} (hm : (⟨.rename a b, r⟩ : (o : Sys) × o.Resp) ∈ tr) :
    a = c.fileName ∧ ∃ t0 rw1 names tag, Runs umask (c.needsToRoll lib rw) d t0 (true, rw1) d ∧ rw1.file = some .opened ∧ SysStep umask d .readdir (some names) d ∧
      b = backupName c.mode c.fileName tag ∧ t0 <+: tr ∧
      ((∃ max, c.kind = .size max ∧ tag = itoa (wrap64 ((match (c.historyOf lib names).getLast? with
          | some latest => (atoi (c.getFileRollName latest)).1
          | none => 0) + 1))) ∨ (∃ pat, c.kind = .time pat ∧ tag = rw1.timeName)) := by
  obtain ⟨t1, b1, rw1, d1, t2, rw2, d2, h1, h2⟩ := runs_write h
  have hq1 := Prog.All.runs (all_needsToRoll lib c rw) h1
  obtain ⟨rfl, _⟩ := runs_needsToRoll h1
  have hprop := Prog.Does.runs (does_needsToRoll lib c rw) h1
  have hn1 : rw1.file = some .opened → rw1.name = c.fileName := by
    rw [hprop.1, hprop.2.1]; exact hn
  have nr1 : (⟨.rename a b, r⟩ : (o : Sys) × o.Resp) ∉ t1 := fun hx => by
    have e := hq1 _ hx; cases e
  have key : ∀ {ok : Bool}, b1 = true → t1 <+: tr → Runs umask (c.roll lib rw1) d1 t2 (ok, rw2) d2 → (⟨.rename a b, r⟩ : (o : Sys) × o.Resp) ∈ t2 →
      a = c.fileName ∧ ∃ t0 rw1 names tag, Runs umask (c.needsToRoll lib rw) d1 t0 (true, rw1) d1 ∧ rw1.file = some .opened ∧ SysStep umask d1 .readdir (some names) d1 ∧
      b = backupName c.mode c.fileName tag ∧ t0 <+: tr ∧
      ((∃ max, c.kind = .size max ∧ tag = itoa (wrap64 ((match (c.historyOf lib names).getLast? with
          | some latest => (atoi (c.getFileRollName latest)).1
          | none => 0) + 1))) ∨ (∃ pat, c.kind = .time pat ∧ tag = rw1.timeName)) := by
    intro ok hb hpre hroll hm
    subst hb
    rcases runs_roll hroll with ⟨_, rfl, h3⟩ | ⟨hf, names, t4, hrd, rfl, ho⟩
    · rcases h3 with ⟨_, rfl, _⟩ | ⟨_, rfl, _⟩ | ⟨_, rfl, _⟩ <;> simp at hm
    · obtain ⟨tag, t5, hk, h5⟩ := runs_rollOver ho
      have hm5 : (⟨.rename a b, r⟩ : (o : Sys) × o.Resp) ∉ t5 := by
        rcases hk with ⟨_, _, rfl, _⟩ | ⟨_, _, _, rfl, _⟩ <;> simp
      have hk' : (∃ max, c.kind = .size max ∧ tag = itoa (wrap64 ((match (c.historyOf lib names).getLast? with
          | some latest => (atoi (c.getFileRollName latest)).1
          | none => 0) + 1))) ∨ (∃ pat, c.kind = .time pat ∧ tag = rw1.timeName) := by
        rcases hk with ⟨max, h1, _, _, h2⟩ | ⟨pat, _, h1, _, _, h2⟩
        · exact .inl ⟨max, h1, h2⟩
        · exact .inr ⟨pat, h1, h2⟩
      rcases h5 with ⟨_, rfl, _⟩ | ⟨_, _, _, _, t6, _, _, rfl, h6⟩
      · simp only [List.mem_append, List.mem_cons, List.not_mem_nil, or_false, Sigma.mk.injEq, hm5, false_or] at hm
        rcases hm with (⟨hm, _⟩ | ⟨hm, _⟩) | ⟨hm, _⟩
        · cases hm
        · cases hm
        · cases hm
          exact ⟨hn1 hf, t1, rw1, names, tag, h1, hf, hrd, rfl, hpre, hk'⟩
      · have h6' : (⟨.rename a b, r⟩ : (o : Sys) × o.Resp) ∉ t6 := by
          rcases h6 with ⟨_, h6⟩ | ⟨_, rfl, _⟩
          · exact fun hx => deleteOldRolls_norename h6 hx a b rfl
          · simp
        simp only [List.mem_append, List.mem_cons, List.not_mem_nil, or_false, Sigma.mk.injEq, hm5, false_or, h6'] at hm
        rcases hm with (⟨hm, _⟩ | ⟨hm, _⟩) | ⟨hm, _⟩ | ⟨hm, _⟩
        · cases hm
        · cases hm
        · cases hm
          exact ⟨hn1 hf, t1, rw1, names, tag, h1, hf, hrd, rfl, hpre, hk'⟩
        · cases hm
  rcases h2 with ⟨hb, hr, rfl, _⟩ | ⟨hr, t3, ha, rfl⟩
  · exact key hb (List.prefix_append _ _) hr (by simpa [nr1] using hm)
  · have hna : (⟨.rename a b, r⟩ : (o : Sys) × o.Resp) ∉ t3 := fun hx => append_norename ha _ hx a b rfl
    rcases hr with ⟨hb, hr⟩ | ⟨_, rfl, _⟩
    · exact key hb (by rw [List.append_assoc]; exact List.prefix_append _ _) hr (by simpa [nr1, hna] using hm)
    · simp [nr1, hna] at hm

theorem historyOf_sorted (lib : RLib) (c : RCfg) (names : List Str) :
    (c.historyOf lib names).Pairwise fun a b => c.key lib (c.getFileRollName a) ≤ c.key lib (c.getFileRollName b) := by
  simp only [RCfg.historyOf, RCfg.sortFileRollNamesAsc, createFull_eq, List.pairwise_map, getFileRollName_backup]
  exact lib.sort_sorted _ _

theorem historyOf_sub {names : List Str} {n : Str} (h : n ∈ c.historyOf lib names) : n ∈ names := by
  simp only [RCfg.historyOf, List.mem_map, RCfg.sortFileRollNamesAsc] at h
  obtain ⟨tag, h, rfl⟩ := h
  have h := List.mem_filter.mp ((lib.sort_perm _ _).mem_iff.mp h)
  obtain ⟨m, hm, rfl⟩ := List.mem_map.mp h.1
  obtain ⟨h1, h2⟩ := List.mem_filter.mp hm
  rw [createFull_eq, ← backup_of_hasRollName c m h2]
  exact h1

/-- The number after the last. -/
theorem new_number {max : Int} (hk : c.kind = .size max) {names : List Str}
    (hsmall : ∀ n ∈ names, ∀ v, Backup lib c n v → v < 2 ^ 63 - 1) :
    ∃ w, Backup lib c (backupName c.mode c.fileName (itoa (wrap64 ((match (c.historyOf lib names).getLast? with
          | some latest => (atoi (c.getFileRollName latest)).1
          | none => 0) + 1)))) w ∧ ∀ n ∈ names, ∀ v, Backup lib c n v → v < w := by
  rcases List.eq_nil_or_concat (c.historyOf lib names) with e | ⟨hs', l, e⟩
  · rw [e]
    refine ⟨1, ⟨_, rfl, ?_⟩, fun n hn v hv => ?_⟩
    · simp only [List.getLast?_nil]
      rw [hk, wrap64_small (by omega) (by omega)]
      exact .size (decimal_itoa _) (by omega) (by omega)
    · have := historyOf_mem hv hn
      rw [e] at this; cases this
  · rw [List.concat_eq_append] at e
    obtain ⟨v, hv⟩ := mem_historyOf (n := l) (lib := lib) (c := c) (names := names) (by rw [e]; simp)
    have hv' := ((backup_iff lib c l v).mp hv).2
    have hkey := backup_key hv
    rw [hk] at hv'
    have hvm := hsmall l (historyOf_sub (lib := lib) (c := c) (by rw [e]; simp)) v hv
    cases hv' with
    | size _ hlo hhi =>
      refine ⟨v + 1, ⟨_, rfl, ?_⟩, fun n hn w hw => ?_⟩
      · rw [e]
        simp only [List.getLast?_concat]
        simp only [RCfg.key, hk] at hkey
        rw [hk, hkey, wrap64_small (by omega) (by omega)]
        exact .size (decimal_itoa _) (by omega) (by omega)
      · have hmem := historyOf_mem hw hn
        have hs := historyOf_sorted lib c names
        rw [e] at hmem hs
        rcases List.mem_append.mp hmem with hm | hm
        · have := (List.pairwise_append.mp hs).2.2 n hm l (by simp)
          rw [backup_key hw, backup_key hv] at this
          omega
        · simp only [List.mem_singleton] at hm; subst hm
          rw [backup_unique hw hv]; omega

end Log4g
