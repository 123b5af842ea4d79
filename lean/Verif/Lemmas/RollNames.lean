import Verif.Spec.Rolling
import Verif.Lemmas.Numbers

/-! # Names and order of backups -/

namespace Log4g
open Spec Strconv

theorem createFull_eq (c : RCfg) (file tag : Str) : c.createFullFileName file tag = backupName c.mode file tag := by
  cases hm : c.mode <;> simp [RCfg.createFullFileName, backupName, hm]

theorem hasRollName_backup (c : RCfg) (tag : Str) : c.hasRollName (backupName c.mode c.fileName tag) = true := by
  cases hm : c.mode
  · simp only [RCfg.hasRollName, backupName, hm, List.isPrefixOf_iff_prefix]
    exact ⟨tag, by simp⟩
  · simp only [RCfg.hasRollName, backupName, hm, List.isSuffixOf_iff_suffix]
    exact ⟨tag, by simp⟩

theorem getFileRollName_backup (c : RCfg) (tag : Str) : c.getFileRollName (backupName c.mode c.fileName tag) = tag := by
  cases hm : c.mode
  · simp only [RCfg.getFileRollName, backupName, hm]
    have : c.fileName ++ '.' :: tag = (c.fileName ++ c!".") ++ tag := by simp
    rw [this, List.drop_left]
  · simp only [RCfg.getFileRollName, backupName, hm]
    have : (tag ++ '.' :: c.fileName).length - (c.fileName ++ c!".").length = tag.length := by simp
    rw [this, List.take_left]

theorem backup_of_hasRollName (c : RCfg) (n : Str) (h : c.hasRollName n = true) : n = backupName c.mode c.fileName (c.getFileRollName n) := by
  cases hm : c.mode
  · simp only [RCfg.hasRollName, hm, List.isPrefixOf_iff_prefix] at h
    obtain ⟨t, rfl⟩ := h
    have := getFileRollName_backup c t
    rw [hm] at this
    have e : c.fileName ++ c!"." ++ t = backupName .post c.fileName t := by simp [backupName]
    rw [e, this]
  · simp only [RCfg.hasRollName, hm, List.isSuffixOf_iff_suffix] at h
    obtain ⟨t, rfl⟩ := h
    have := getFileRollName_backup c t
    rw [hm] at this
    have e : t ++ (c!"." ++ c.fileName) = backupName .pre c.fileName t := by simp [backupName]
    rw [e, this]

theorem hasRollName_current (c : RCfg) : c.hasRollName c.fileName = false := by
  rw [← Bool.not_eq_true]
  intro h
  have := congrArg List.length (backup_of_hasRollName c _ h)
  cases hm : c.mode <;> simp [backupName, hm] at this <;> omega

theorem backupName_inj (m : NameMode) (file : Str) {a b : Str} (h : backupName m file a = backupName m file b) : a = b := by
  cases m <;> simpa [backupName] using h

theorem atoi_decimal {s : Str} {n : Int} (h : Decimal s n) (h1 : -(2 ^ 63) ≤ n) (h2 : n < 2 ^ 63) : atoi s = (n, none) := by
  have e : (atoi s).2 = none := (atoi_ok_iff s).mpr ⟨n, h, h1, h2⟩
  have hv := atoi_val s
  generalize hx : (atoi s).1 = x at hv
  have ex : x = n := by
    cases hv with
    | small h' _ _ => exact decimal_unique h' h
    | bigPos h' hb => have := decimal_unique h' h; omega
    | bigNeg h' hb => have := decimal_unique h' h; omega
    | overPos h' _ => exact absurd h (h' n)
    | overNeg h' _ => exact absurd h (h' n)
    | junk h' _ _ _ => exact absurd h (h' n)
  rw [← ex, ← hx, ← e]

theorem tag_nonempty {lib : RLib} {k : RKind} {tag : Str} {v : Int} (h : Tag lib k tag v) : tag ≠ [] := by
  cases h with
  | size hd _ _ =>
    cases hd with
    | plain h => exact h.1
    | plus _ => simp
    | minus _ => simp
  | time h _ => exact h

theorem valid_iff (lib : RLib) (c : RCfg) (tag : Str) : c.isFileRollNameValid lib tag = true ↔ ∃ v, Tag lib c.kind tag v := by
  cases hk : c.kind with
  | size max =>
    simp only [RCfg.isFileRollNameValid, hk]
    by_cases ht : tag = []
    · rw [if_pos ht]
      constructor
      · simp
      · rintro ⟨v, h⟩; exact absurd ht (tag_nonempty h)
    · rw [if_neg ht]
      simp only [decide_eq_true_eq]
      rw [atoi_ok_iff]
      constructor
      · rintro ⟨v, h1, h2, h3⟩; exact ⟨v, .size h1 h2 h3⟩
      · rintro ⟨v, h⟩
        cases h with
        | size h1 h2 h3 => exact ⟨v, h1, h2, h3⟩
  | time pat =>
    simp only [RCfg.isFileRollNameValid, hk]
    by_cases ht : tag = []
    · rw [if_pos ht]
      constructor
      · simp
      · rintro ⟨v, h⟩; exact absurd ht (tag_nonempty h)
    · rw [if_neg ht, Option.isSome_iff_exists]
      constructor
      · rintro ⟨v, h⟩; exact ⟨v, .time ht h⟩
      · rintro ⟨v, h⟩
        cases h with
        | time _ h => exact ⟨v, h⟩

theorem key_of_tag {lib : RLib} {c : RCfg} {tag : Str} {v : Int} (h : Tag lib c.kind tag v) : c.key lib tag = v := by
  generalize hk : c.kind = k at h
  cases h with
  | size h1 h2 h3 => simp [RCfg.key, hk, atoi_decimal h1 h2 h3]
  | time _ h => simp [RCfg.key, hk, h]

theorem tag_unique {lib : RLib} {k : RKind} {tag : Str} {v w : Int} (h : Tag lib k tag v) (h' : Tag lib k tag w) : v = w := by
  have h1 := key_of_tag (c := { fileName := [], kind := k, maxRolls := 0 }) h
  have h2 := key_of_tag (c := { fileName := [], kind := k, maxRolls := 0 }) h'
  rw [← h1, ← h2]

theorem backup_iff (lib : RLib) (c : RCfg) (n : Str) (v : Int) :
    Backup lib c n v ↔ c.hasRollName n = true ∧ Tag lib c.kind (c.getFileRollName n) v := by
  constructor
  · rintro ⟨tag, rfl, h⟩
    exact ⟨hasRollName_backup c tag, by rw [getFileRollName_backup]; exact h⟩
  · rintro ⟨h1, h2⟩
    exact ⟨_, backup_of_hasRollName c n h1, h2⟩

theorem backup_unique {lib : RLib} {c : RCfg} {n : Str} {v w : Int} (h : Backup lib c n v) (h' : Backup lib c n w) : v = w :=
  tag_unique ((backup_iff lib c n v).mp h).2 ((backup_iff lib c n w).mp h').2

theorem backup_key {lib : RLib} {c : RCfg} {n : Str} {v : Int} (h : Backup lib c n v) : c.key lib (c.getFileRollName n) = v :=
  key_of_tag ((backup_iff lib c n v).mp h).2

theorem current_not_backup (lib : RLib) (c : RCfg) (v : Int) : ¬ Backup lib c c.fileName v := by
  rw [backup_iff, hasRollName_current]; simp

/-- Two arrangements of the same things in ascending order are the same if no two have the same key. -/
theorem sorted_unique {α : Type} (key : α → Int) {xs ys : List α} (hp : xs.Perm ys) (hx : xs.Pairwise fun a b => key a < key b)
    (hy : ys.Pairwise fun a b => key a ≤ key b) : xs = ys := by
  induction xs generalizing ys with
  | nil => exact hp.nil_eq
  | cons x xs ih =>
    cases ys with
    | nil => exact absurd hp.length_eq (by simp)
    | cons y ys =>
      rw [List.pairwise_cons] at hx hy
      have hxy : x = y := by
        have h1 : y ∈ x :: xs := hp.mem_iff.mpr (by simp)
        have h2 : x ∈ y :: ys := hp.mem_iff.mp (by simp)
        rcases List.mem_cons.mp h1 with h1 | h1
        · exact h1.symm
        · rcases List.mem_cons.mp h2 with h2 | h2
          · exact h2
          · have := hx.1 y h1
            have := hy.1 x h2
            omega
      subst hxy
      rw [ih (hp.cons_inv) hx.2 hy.2]

/-- The history is the list of backups in the directory. -/
theorem history_eq {lib : RLib} {c : RCfg} {d : Dir} {hs names : List Str} (hb : Backups lib c d hs) (hn : names.Nodup)
    (hm : ∀ n, n ∈ names ↔ ∃ data perm, d n = some (.file data perm)) : c.historyOf lib names = hs := by
  have hkey : ∀ n ∈ hs, ∃ v, Backup lib c n v := fun n h => ((hb.all n).mp h).1
  have ord : hs.Pairwise fun a b => c.key lib (c.getFileRollName a) < c.key lib (c.getFileRollName b) := by
    refine hb.order.imp_of_mem ?_
    intro a b ha hb' h
    obtain ⟨v, hv⟩ := hkey a ha
    obtain ⟨w, hw⟩ := hkey b hb'
    rw [backup_key hv, backup_key hw]
    exact h v w hv hw
  symm
  refine sorted_unique (fun n => c.key lib (c.getFileRollName n)) ?_ ord ?_
  · rw [List.perm_ext_iff_of_nodup]
    · intro n
      rw [hb.all]
      simp only [RCfg.historyOf, RCfg.sortFileRollNamesAsc, List.mem_map, (lib.sort_perm _ _).mem_iff, List.mem_filter, createFull_eq]
      constructor
      · rintro ⟨⟨v, hv⟩, hr⟩
        obtain ⟨h1, h2⟩ := (backup_iff lib c n v).mp hv
        exact ⟨c.getFileRollName n, ⟨⟨n, ⟨(hm n).mpr hr, h1⟩, rfl⟩, (valid_iff lib c _).mpr ⟨v, h2⟩⟩, (backup_of_hasRollName c n h1).symm⟩
      · rintro ⟨tag, ⟨⟨m, ⟨h1, h2⟩, rfl⟩, h3⟩, rfl⟩
        rw [← backup_of_hasRollName c m h2]
        obtain ⟨v, hv⟩ := (valid_iff lib c _).mp h3
        exact ⟨⟨v, (backup_iff lib c m v).mpr ⟨h2, hv⟩⟩, (hm m).mp h1⟩
    · refine hb.order.imp_of_mem ?_
      intro a b ha hb' h e
      subst e
      obtain ⟨v, hv⟩ := hkey a ha
      exact absurd (h v v hv hv) (by omega)
    · simp only [RCfg.historyOf, RCfg.sortFileRollNamesAsc]
      rw [List.nodup_iff_pairwise_ne, List.pairwise_map]
      refine List.Pairwise.imp (R := (· ≠ ·)) ?_ ?_
      · intro a b hne h
        rw [createFull_eq, createFull_eq] at h
        exact hne (backupName_inj _ _ h)
      · refine ((lib.sort_perm _ _).nodup_iff).mpr (List.Pairwise.filter _ ?_)
        have hf := List.Pairwise.filter c.hasRollName hn
        rw [List.pairwise_map]
        refine hf.imp_of_mem ?_
        intro a b ha hb' hne e
        apply hne
        rw [backup_of_hasRollName c a (List.mem_filter.mp ha).2, backup_of_hasRollName c b (List.mem_filter.mp hb').2, e]
  · simp only [RCfg.historyOf, RCfg.sortFileRollNamesAsc, createFull_eq, List.pairwise_map, getFileRollName_backup]
    exact lib.sort_sorted _ _

/-- Decimal digits denote their number. -/
theorem digits_natDigits (n : Nat) : Digits (natDigits n) ∧ valueOf 10 (natDigits n) = n := by
  have dig : ∀ d, d < 10 → IsDigit (digitChar d) ∧ (digitChar d).toNat - 48 = d := by
    intro d hd
    have : d = 0 ∨ d = 1 ∨ d = 2 ∨ d = 3 ∨ d = 4 ∨ d = 5 ∨ d = 6 ∨ d = 7 ∨ d = 8 ∨ d = 9 := by omega
    rcases this with h | h | h | h | h | h | h | h | h | h <;> subst h <;> decide
  induction n using Nat.strongRecOn with
  | _ n ih =>
    rw [natDigits]
    split
    · rename_i h
      refine ⟨⟨by simp, by simpa using (dig n h).1⟩, by simpa [valueOf] using (dig n h).2⟩
    · rename_i h
      obtain ⟨⟨_, i2⟩, i3⟩ := ih (n / 10) (by omega)
      have hd := dig (n % 10) (by omega)
      refine ⟨⟨by simp, ?_⟩, ?_⟩
      · intro c hc
        rcases List.mem_append.mp hc with hc | hc
        · exact i2 c hc
        · simp at hc; rw [hc]; exact hd.1
      · rw [valueOf, List.foldl_append]
        show (valueOf 10 (natDigits (n / 10))) * 10 + ((digitChar (n % 10)).toNat - 48) = n
        rw [i3, hd.2]; omega

theorem decimal_itoa (v : Int) : Decimal (itoa v) v := by
  obtain ⟨h1, h2⟩ := digits_natDigits v.natAbs
  rw [itoa]
  split
  · have := Decimal.minus h1
    rw [h2] at this
    have e : -(v.natAbs : Int) = v := by omega
    rwa [e] at this
  · have := Decimal.plain h1
    rw [h2] at this
    have e : (v.natAbs : Int) = v := by omega
    rwa [e] at this

theorem wrap64_small {x : Int} (h1 : -(2 ^ 63) ≤ x) (h2 : x < 2 ^ 63) : wrap64 x = x := by
  rw [wrap64]
  exact Int.bmod_eq_of_le (by omega) (by omega)

theorem decimal_tag_range (v : Int) : ∃ w, Decimal (itoa (wrap64 v)) w ∧ -(2 ^ 63) ≤ w ∧ w < 2 ^ 63 := by
  refine ⟨wrap64 v, decimal_itoa _, ?_, ?_⟩
  · have := Int.le_bmod (x := v) (m := 2 ^ 64) (by decide)
    rw [wrap64]; omega
  · have := Int.bmod_lt (x := v) (m := 2 ^ 64) (by decide)
    rw [wrap64]; omega

end Log4g
