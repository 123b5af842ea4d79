import Verif.Lemmas.FileMode
import Verif.Props.Level

/-! # C28–C32: values read from configuration strings -/

namespace Log4g
open Spec Strconv

/-- What C28 says of one reader `f` with default `dflt` and maximum `max`. -/
def Spec.Clamped (f : Str → Int) (dflt max : Int) : Prop :=
  ∀ s,
    (1 ≤ f s ∧ f s ≤ max) ∧
    (∀ n, Decimal s n → 1 ≤ n → n ≤ max → f s = n) ∧
    (∀ n, Decimal s n → max < n → f s = max) ∧
    (∀ n, Decimal s n → n < 1 → f s = dflt) ∧
    (NotDecimal s → Overlong [] s ∨ Overlong ['+'] s → f s = max) ∧
    (NotDecimal s → ¬ Overlong [] s → ¬ Overlong ['+'] s → f s = dflt)

theorem clamped_clampInt (dflt max : Int) (h1 : 1 ≤ dflt) (h2 : dflt ≤ max) (h3 : max < 2 ^ 63 - 1) :
    Spec.Clamped (clampInt dflt max) dflt max := by
  intro s
  have hv := atoi_val s
  simp only [clampInt]
  generalize hr : (atoi s).1 = r at hv
  refine ⟨?_, ?_, ?_, ?_, ?_, ?_⟩
  · split <;> split <;> omega
  · intro n hn hn1 hn2
    cases hv with
    | small h ha hb => have := decimal_unique h hn; split <;> split <;> omega
    | bigPos h ha => have := decimal_unique h hn; omega
    | bigNeg h ha => have := decimal_unique h hn; omega
    | overPos h => exact absurd hn (h n)
    | overNeg h => exact absurd hn (h n)
    | junk h => exact absurd hn (h n)
  · intro n hn hn1
    cases hv with
    | small h ha hb => have := decimal_unique h hn; split <;> split <;> omega
    | bigPos h ha => split <;> first | rfl | omega | (split <;> omega)
    | bigNeg h ha => have := decimal_unique h hn; omega
    | overPos h => exact absurd hn (h n)
    | overNeg h => exact absurd hn (h n)
    | junk h => exact absurd hn (h n)
  · intro n hn hn1
    cases hv with
    | small h ha hb => have := decimal_unique h hn; split <;> split <;> omega
    | bigPos h ha => have := decimal_unique h hn; omega
    | bigNeg h ha => split <;> split <;> omega
    | overPos h => exact absurd hn (h n)
    | overNeg h => exact absurd hn (h n)
    | junk h => exact absurd hn (h n)
  · intro hn ho
    cases hv with
    | small h ha hb => exact absurd h (hn _)
    | bigPos h ha => exact absurd h (hn _)
    | bigNeg h ha => exact absurd h (hn _)
    | overPos h => split <;> first | rfl | omega | (split <;> omega)
    | overNeg h h' =>
      exfalso
      obtain ⟨ds, r, e, _⟩ := h'
      rcases ho with ho | ho
      · obtain ⟨c, t, e', hc⟩ := overlong_digit_head ho
        rw [e] at e'; simp at e'
        exact not_digit_minus (e'.1 ▸ hc)
      · rw [e] at ho
        exact overlong_cons_ne _ (by decide) ho
    | junk h ha hb => rcases ho with ho | ho <;> contradiction
  · intro hn ho ho'
    cases hv with
    | small h ha hb => exact absurd h (hn _)
    | bigPos h ha => exact absurd h (hn _)
    | bigNeg h ha => exact absurd h (hn _)
    | overPos h h' => rcases h' with h' | h' <;> contradiction
    | overNeg h => split <;> split <;> omega
    | junk h ha hb => split <;> split <;> omega

/-- **C28.** Queue size, batch size and number of backups. -/
theorem C28_ranges :
    Spec.Clamped GetQueueSize 1000 100000 ∧ Spec.Clamped GetBatchNum 20 500 ∧
    Spec.Clamped getMaxRolls 5 20 :=
  ⟨clamped_clampInt _ _ (by decide) (by decide) (by decide),
   clamped_clampInt _ _ (by decide) (by decide) (by decide),
   clamped_clampInt _ _ (by decide) (by decide) (by decide)⟩

/-- Non-vacuity of C28: each kind of string exists. -/
example : Decimal c!"+42" 42 ∧ GetQueueSize c!"+42" = 42 ∧ Decimal c!"-7" (-7) ∧ GetBatchNum c!"-7" = 20 ∧
    NotDecimal c!"12x" ∧ getMaxRolls c!"12x" = 5 ∧
    Overlong [] c!"99999999999999999999x" ∧ getMaxRolls c!"99999999999999999999x" = 20 := by
  have nd : NotDecimal c!"12x" := by
    intro n h
    cases h with
    | plain h => exact absurd (h.2 'x' (by simp)) (by decide)
  exact ⟨.plus ⟨by simp, by simp; decide⟩, by decide, .minus ⟨by simp, by simp; decide⟩, by decide, nd, by decide,
    ⟨c!"99999999999999999999", c!"x", rfl, ⟨by simp, by simp; decide⟩, by decide⟩, by decide⟩

/-- **C29.** For every string and every default inside the permission bits, `getFileMode` is a mode
between 1 and 0777: the mode the string denotes as a Go integer literal, or else the default. Both
generations of `strconv` are covered. -/
theorem C29_file_mode (tc : Toolchain) (s : Str) (dflt : Nat) (hd : 1 ≤ dflt ∧ dflt ≤ 0o777) :
    (1 ≤ getFileMode tc s dflt ∧ getFileMode tc s dflt ≤ 0o777) ∧
    (∀ n, GoNat (tc = .since113) s n → 1 ≤ n → n ≤ 0o777 → getFileMode tc s dflt = n) ∧
    ((∀ n, GoNat (tc = .since113) s n → n = 0 ∨ 0o777 < n) → getFileMode tc s dflt = dflt) := by
  have hus : tc.us = (decide (tc = .since113)) := rfl
  rw [← hus]
  -- the literal part, without sign
  have lit : ∀ (t : Str) (neg : Bool), ∃ fm : Int, (signed neg (2 ^ 31) (parseUint0 tc t)).1 = fm ∧
      ((∃ n, GoLit tc.us t n ∧ n ≤ 2 ^ 31 - 1 ∧ fm = (if neg then -(n : Int) else n)) ∨
       ((∀ n, GoLit tc.us t n → 2 ^ 31 ≤ n) ∧ (fm ≤ 0 ∨ 0o777 < fm))) := by
    intro t neg
    refine ⟨_, rfl, ?_⟩
    rcases hp : parseUint0 tc t with ⟨v, _ | e⟩
    · have hv := (parseUint0_iff tc t v).mp hp
      by_cases h31 : v ≤ 2 ^ 31 - 1
      · left
        refine ⟨v, hv.1, h31, ?_⟩
        have h1 : ¬ (2147483648 ≤ v) := by omega
        have h2 : ¬ (2147483648 < v) := by omega
        simp [signed, h1, h2]
      · right
        constructor
        · intro n hn
          rcases Nat.lt_or_ge n (2 ^ 31) with h | h
          · have := (parseUint0_iff tc t n).mpr ⟨hn, by omega⟩
            rw [hp] at this; injection this with this; omega
          · exact h
        · have h1 : 2147483648 ≤ v := by omega
          cases neg <;> simp [signed, h1] <;> split <;> simp <;> omega
    · right
      constructor
      · intro n hn
        rcases Nat.lt_or_ge n (2 ^ 31) with h | h
        · have := (parseUint0_iff tc t n).mpr ⟨hn, by omega⟩
          rw [hp] at this; simp at this
        · exact h
      · rcases parseUint0_err tc t v e hp with ⟨rfl, rfl⟩ | ⟨rfl, rfl⟩
        · simp [signed]
        · cases neg <;> simp [signed]
  have val : ∀ (fm : Int) (n : Nat), fm = n → 1 ≤ n → n ≤ 0o777 → (fm % 2 ^ 32).toNat = n := by
    intro fm n h h1 h2; omega
  by_cases hs : s = []
  · subst hs
    have : getFileMode tc [] dflt = dflt := by simp [getFileMode, parseInt0]
    rw [this]
    refine ⟨hd, ?_, fun _ => rfl⟩
    intro n h
    rcases h with h | ⟨t, h, _⟩
    · cases h
    · simp at h
  have nominus : ∀ t n, ¬ GoLit tc.us ('-' :: t) n := by
    intro t n h
    cases h with
    | dec h _ _ =>
      have := ((baseDigit_iff 10 (by omega) _ _).mp h).2
      simp [digitVal] at this
  have noplus : ∀ t n, ¬ GoLit tc.us ('+' :: t) n := by
    intro t n h
    cases h with
    | dec h _ _ =>
      have := ((baseDigit_iff 10 (by omega) _ _).mp h).2
      simp [digitVal] at this
  -- unique literal value
  have uniq : ∀ t n m, GoLit tc.us t n → GoLit tc.us t m → n ≤ 2 ^ 31 - 1 → m ≤ 2 ^ 31 - 1 → n = m := by
    intro t n m h h' hn hm
    have a := (parseUint0_iff tc t n).mpr ⟨h, by omega⟩
    have b := (parseUint0_iff tc t m).mpr ⟨h', by omega⟩
    rw [a] at b; injection b
  rcases splitSign_cases s with ⟨t, ht, hsp⟩ | ⟨t, ht, hsp⟩ | ⟨hm, hpl, hsp⟩
  · obtain ⟨fm, he, h⟩ := lit t true
    have hg : (parseInt0 tc s).1 = fm := by simp [parseInt0, hs, hsp, he]
    have hno : ∀ n, ¬ GoNat tc.us s n := by
      rintro n (h | ⟨t', h, _⟩)
      · rw [ht] at h; exact nominus _ _ h
      · rw [ht] at h; simp at h
    have : getFileMode tc s dflt = dflt := by
      simp only [getFileMode, hg]
      rcases h with ⟨n, _, _, h⟩ | ⟨_, h | h⟩
      · have h0 : fm ≤ 0 := by simp at h; omega
        rw [if_pos h0]; split <;> rfl
      · rw [if_pos h]; split <;> rfl
      · rw [if_pos h]
    rw [this]
    exact ⟨hd, fun n h => absurd h (hno n), fun _ => rfl⟩
  · obtain ⟨fm, he, h⟩ := lit t false
    have hg : (parseInt0 tc s).1 = fm := by simp [parseInt0, hs, hsp, he]
    have hlit : ∀ n, GoNat tc.us s n ↔ GoLit tc.us t n := by
      intro n; constructor
      · rintro (h | ⟨t', h, h'⟩)
        · rw [ht] at h; exact absurd h (noplus _ _)
        · rw [ht] at h; injection h with _ h; exact h ▸ h'
      · intro h; exact .inr ⟨t, ht, h⟩
    simp only [hlit]
    simp only [getFileMode, hg]
    rcases h with ⟨n, hn, hn', h⟩ | ⟨hno, h⟩
    · simp only [Bool.false_eq_true, if_false] at h
      refine ⟨?_, ?_, ?_⟩
      · split
        · exact hd
        · split
          · exact hd
          · rw [val fm n h (by omega) (by omega)]; omega
      · intro m hm h1 h2
        have := uniq _ _ _ hn hm hn' (by omega); subst this
        rw [if_neg (by omega), if_neg (by omega), val fm n h h1 h2]
      · intro hall
        rcases hall n hn with h0 | h0
        · rw [if_pos (show fm ≤ 0 by omega)]; split <;> rfl
        · rw [if_pos (by omega)]
    · have : (if fm > 0o777 then dflt else if fm ≤ 0 then dflt else (fm % 2 ^ 32).toNat) = dflt := by
        rcases h with h | h
        · rw [if_pos h]; split <;> rfl
        · rw [if_pos h]
      rw [this]
      refine ⟨hd, ?_, fun _ => rfl⟩
      intro n h h1 h2
      have := hno n h; omega
  · obtain ⟨fm, he, h⟩ := lit s false
    have hg : (parseInt0 tc s).1 = fm := by simp [parseInt0, hs, hsp, he]
    have hlit : ∀ n, GoNat tc.us s n ↔ GoLit tc.us s n := by
      intro n; constructor
      · rintro (h | ⟨t', h, h'⟩)
        · exact h
        · exact absurd h (hpl _)
      · intro h; exact .inl h
    simp only [hlit]
    simp only [getFileMode, hg]
    rcases h with ⟨n, hn, hn', h⟩ | ⟨hno, h⟩
    · simp only [Bool.false_eq_true, if_false] at h
      refine ⟨?_, ?_, ?_⟩
      · split
        · exact hd
        · split
          · exact hd
          · rw [val fm n h (by omega) (by omega)]; omega
      · intro m hm h1 h2
        have := uniq _ _ _ hn hm hn' (by omega); subst this
        rw [if_neg (by omega), if_neg (by omega), val fm n h h1 h2]
      · intro hall
        rcases hall n hn with h0 | h0
        · rw [if_pos (show fm ≤ 0 by omega)]; split <;> rfl
        · rw [if_pos (by omega)]
    · have : (if fm > 0o777 then dflt else if fm ≤ 0 then dflt else (fm % 2 ^ 32).toNat) = dflt := by
        rcases h with h | h
        · rw [if_pos h]; split <;> rfl
        · rw [if_pos h]
      rw [this]
      refine ⟨hd, ?_, fun _ => rfl⟩
      intro n h h1 h2
      have := hno n h; omega

/-- Non-vacuity of C29: an octal literal, a literal that is too large, a string that is none. -/
example : GoNat false c!"0640" 0o640 ∧ getFileMode .pre113 c!"0640" 0o600 = 0o640 ∧
    getFileMode .since113 c!"0o7_5_0" 0o600 = 0o750 ∧
    getFileMode .pre113 c!"0o750" 0o600 = 0o600 ∧ getFileMode .since113 c!"1000" 0o600 = 0o600 ∧
    getFileMode .since113 c!"rw" 0o500 = 0o500 := by
  refine ⟨.inl (.oct (.digit (d := 6) ?_ (.digit (d := 4) ?_ (.digit (d := 0) ?_ .done)))), by decide, by decide, by decide, by decide, by decide⟩ <;>
    exact ⟨by decide, .inl rfl⟩

/-- The intended meaning of a size with a unit, C30. -/
def Spec.SizeUnits (f : Str → Int) : Prop :=
  ∀ ds n, Decimal ds n → 0 < n →
    f (ds ++ ['K']) = n * 1024 ∧ f (ds ++ ['M']) = n * 1024 ^ 2 ∧ f (ds ++ ['G']) = n * 1024 ^ 3

/-- **C30 is false**: `"5K"` means 10 MiB. -/
theorem C30_size_units_refuted : ¬ Spec.SizeUnits getMaxSize := by
  intro h
  have := (h c!"5" 5 (.plain ⟨by simp, by simp; decide⟩) (by decide)).1
  revert this
  decide

theorem not_digit_unit {c : Char} (h : c = 'K' ∨ c = 'M' ∨ c = 'G') : ¬ IsDigit c := by
  rcases h with rfl | rfl | rfl <;> decide

theorem notDecimal_unit {t : Str} {c : Char} (h : c = 'K' ∨ c = 'M' ∨ c = 'G') : NotDecimal (t ++ [c]) := by
  intro n hn
  have hc := not_digit_unit h
  generalize hs : t ++ [c] = s at hn
  cases hn with
  | plain hd => exact hc (hd.2 c (by rw [← hs]; simp))
  | @plus ds hd =>
    cases t with
    | nil =>
      simp at hs; exact hd.1 hs.2
    | cons x t =>
      simp at hs; exact hc (hd.2 c (by rw [← hs.2]; simp))
  | @minus ds hd =>
    cases t with
    | nil =>
      simp at hs; exact hd.1 hs.2
    | cons x t =>
      simp at hs; exact hc (hd.2 c (by rw [← hs.2]; simp))

theorem getLast_append_one (t : Str) (c : Char) : (t ++ [c]).getLast? = some c := by simp

/-- The three outcomes of `Atoi` on a string that ends with a unit. -/
theorem atoi_unit {t : Str} {c : Char} (h : c = 'K' ∨ c = 'M' ∨ c = 'G') :
    ((Overlong [] (t ++ [c]) ∨ Overlong ['+'] (t ++ [c])) ∧ (atoi (t ++ [c])).1 = 2 ^ 63 - 1) ∨
    (¬ (Overlong [] (t ++ [c]) ∨ Overlong ['+'] (t ++ [c])) ∧ (atoi (t ++ [c])).1 ≤ 0) := by
  have hv := atoi_val (t ++ [c])
  have nd := notDecimal_unit (t := t) h
  generalize (atoi (t ++ [c])).1 = r at hv
  cases hv with
  | small h => exact absurd h (nd _)
  | bigPos h => exact absurd h (nd _)
  | bigNeg h => exact absurd h (nd _)
  | overPos _ h => left; exact ⟨h, rfl⟩
  | overNeg _ h' =>
    right
    refine ⟨?_, by decide⟩
    obtain ⟨ds, r, e, _⟩ := h'
    rintro (ho | ho)
    · obtain ⟨c, t, e', hc⟩ := overlong_digit_head ho
      rw [e] at e'; simp at e'
      exact not_digit_minus (e'.1 ▸ hc)
    · rw [e] at ho
      exact overlong_cons_ne _ (by decide) ho
  | junk _ h1 h2 => right; exact ⟨by rintro (h | h) <;> contradiction, by decide⟩

/-- `s` ends with a unit letter. -/
def Spec.HasUnit (s : Str) : Prop := ∃ t c, s = t ++ [c] ∧ (c = 'K' ∨ c = 'M' ∨ c = 'G')

/-- **C30, what holds.** A size without unit means its number of bytes; with a unit the number before
it does not matter: `K` and `M` always mean 10 MiB and `G` always means 1 GiB, unless the digits
overflow 64 bits.  (Missing from C30: that the number counts.) -/
theorem C30_size_units_partial :
    (∀ s n, Decimal s n → 0 < n → n < 2 ^ 63 → getMaxSize s = n) ∧
    (∀ t, ¬ (Overlong [] t ∨ Overlong ['+'] t) →
      getMaxSize (t ++ ['K']) = 10 * 1024 ^ 2 ∧ getMaxSize (t ++ ['M']) = 10 * 1024 ^ 2 ∧
      getMaxSize (t ++ ['G']) = 1024 ^ 3) := by
  constructor
  · intro s n hn h1 h2
    have hv := atoi_val s
    have hlast : ∀ c, (c = 'K' ∨ c = 'M' ∨ c = 'G') → hasSuffixChar s c = false := by
      intro c hc
      simp only [hasSuffixChar, decide_eq_false_iff_not]
      intro hl
      obtain ⟨t, ht⟩ := List.getLast?_eq_some_iff.mp hl
      rw [ht] at hn
      exact notDecimal_unit hc n hn
    simp only [getMaxSize, hlast 'K' (by simp), hlast 'M' (by simp), hlast 'G' (by simp),
      Bool.false_eq_true, if_false]
    generalize (atoi s).1 = r at hv
    have : r = n := by
      cases hv with
      | small h => exact decimal_unique h hn
      | bigPos h => have := decimal_unique h hn; omega
      | bigNeg h => have := decimal_unique h hn; omega
      | overPos h => exact absurd hn (h n)
      | overNeg h => exact absurd hn (h n)
      | junk h => exact absurd hn (h n)
    subst this
    rw [if_neg (by omega)]
  · intro t ho
    have ov : ∀ c, (c = 'K' ∨ c = 'M' ∨ c = 'G') →
        ¬ (Overlong [] (t ++ [c]) ∨ Overlong ['+'] (t ++ [c])) := by
      intro c hc h
      apply ho
      have strip : ∀ sg, Overlong sg (t ++ [c]) → Overlong sg t := by
        rintro sg ⟨ds, rest, e, hd, hv⟩
        rcases List.eq_nil_or_concat rest with rfl | ⟨r, x, rfl⟩
        · exfalso
          have hne := hd.1
          obtain ⟨d', x, rfl⟩ : ∃ d' x, ds = d' ++ [x] := by
            rcases List.eq_nil_or_concat ds with h | ⟨a, b, h⟩
            · exact absurd h hne
            · exact ⟨a, b, by simpa using h⟩
          have e2 : t ++ [c] = (sg ++ d') ++ [x] := by simpa using e
          have := List.append_inj_right' e2 rfl
          simp at this
          exact not_digit_unit hc (this ▸ hd.2 x (by simp))
        · have e2 : t ++ [c] = (sg ++ ds ++ r) ++ [x] := by simpa using e
          exact ⟨ds, r, List.append_inj_left' e2 rfl, hd, hv⟩
      rcases h with h | h
      · exact .inl (strip _ h)
      · exact .inr (strip _ h)
    have nonpos : ∀ c, (c = 'K' ∨ c = 'M' ∨ c = 'G') → (atoi (t ++ [c])).1 ≤ 0 := by
      intro c hc
      rcases atoi_unit (t := t) hc with ⟨h, _⟩ | ⟨_, h⟩
      · exact absurd h (ov c hc)
      · exact h
    refine ⟨?_, ?_, ?_⟩
    · simp [getMaxSize, hasSuffixChar, nonpos 'K' (by simp)]; decide
    · simp [getMaxSize, hasSuffixChar, nonpos 'M' (by simp)]; decide
    · simp [getMaxSize, hasSuffixChar, nonpos 'G' (by simp)]; decide

/-- Non-vacuity of C30: the readings of concrete strings. -/
example : Decimal c!"4096" 4096 ∧ getMaxSize c!"4096" = 4096 ∧ ¬ (Overlong [] c!"5" ∨ Overlong ['+'] c!"5") ∧
    getMaxSize c!"5K" = 10485760 ∧ getMaxSize c!"700M" = 10485760 ∧ getMaxSize c!"3G" = 1073741824 := by
  refine ⟨.plain ⟨by simp, by simp; decide⟩, by decide, ?_, by decide, by decide, by decide⟩
  rintro (h | h)
  · rw [overlong_digits_iff ⟨by simp, by simp; decide⟩] at h; revert h; decide
  · exact overlong_cons_ne _ (by decide) h

/-- **C31 is false**: an overlong number of kilobytes gives a negative size. -/
theorem C31_size_positive_refuted : ¬ ∀ s, 0 < getMaxSize s := by
  intro h
  have := h c!"99999999999999999999K"
  revert this
  decide

/-- **C31, what holds.** The size is positive exactly when the string is not an overlong number
followed by text that ends with a unit. -/
theorem C31_size_positive_partial (s : Str) :
    0 < getMaxSize s ↔ ¬ (Spec.HasUnit s ∧ (Overlong [] s ∨ Overlong ['+'] s)) := by
  by_cases hu : Spec.HasUnit s
  · obtain ⟨t, c, rfl, hc⟩ := hu
    rcases atoi_unit (t := t) hc with ⟨ho, hv⟩ | ⟨ho, hv⟩
    · have : getMaxSize (t ++ [c]) < 0 := by
        simp only [getMaxSize, hv]
        rcases hc with rfl | rfl | rfl <;> simp [hasSuffixChar] <;> decide
      constructor
      · intro h; omega
      · intro h; exact absurd ⟨⟨t, c, rfl, hc⟩, ho⟩ h
    · have : 0 < getMaxSize (t ++ [c]) := by
        simp only [getMaxSize]
        rcases hc with rfl | rfl | rfl <;> simp [hasSuffixChar, hv] <;> decide
      constructor
      · rintro _ ⟨_, h⟩; exact ho h
      · intro _; exact this
  · have hlast : ∀ c, (c = 'K' ∨ c = 'M' ∨ c = 'G') → hasSuffixChar s c = false := by
      intro c hc
      simp only [hasSuffixChar, decide_eq_false_iff_not]
      intro hl
      obtain ⟨t, ht⟩ := List.getLast?_eq_some_iff.mp hl
      exact hu ⟨t, c, ht, hc⟩
    simp only [getMaxSize, hlast 'K' (by simp), hlast 'M' (by simp), hlast 'G' (by simp),
      Bool.false_eq_true, if_false]
    constructor
    · rintro _ ⟨h, _⟩; exact hu h
    · intro _; split <;> omega

/-- Non-vacuity of C31: a string on each side. -/
example : 0 < getMaxSize c!"" ∧ Spec.HasUnit c!"99999999999999999999K" ∧ getMaxSize c!"99999999999999999999K" = -1024 :=
  ⟨by decide, ⟨c!"99999999999999999999", 'K', rfl, by simp⟩, by decide⟩

/-- **C32.** Thresholds. -/
theorem C32_threshold (s : Str) :
    (∀ l name short, (l, name, short) ∈ Spec.levels → SameName s name → GetThresholdLvl s = l) ∧
    ((∀ l name short, (l, name, short) ∈ Spec.levels → ¬ SameName s name) → GetThresholdLvl s = 1) ∧
    GetThresholdLvl s ≠ 0 := by
  have key := C01_levelFrom Level.levelStrings (List.Perm.refl _) s
  have pos : ∀ l name short, (l, name, short) ∈ Spec.levels → l ≠ 0 := by
    intro l name short h
    simp only [Spec.levels, List.mem_cons, Prod.mk.injEq, List.not_mem_nil, or_false] at h
    omega
  have e : GetThresholdLvl s = if Level.LevelFrom Level.levelStrings s = (0 : Int) then (1 : Int)
      else Level.LevelFrom Level.levelStrings s := rfl
  rw [e]
  generalize Level.LevelFrom Level.levelStrings s = r at *
  refine ⟨?_, ?_, ?_⟩
  · intro l name short hm hs
    have := (key l).mpr (.inl ⟨name, short, hm, hs⟩)
    subst this
    rw [if_neg (pos _ _ _ hm)]
  · intro h
    have := (key 0).mpr (.inr ⟨rfl, h⟩)
    subst this
    rw [if_pos rfl]
  · split
    · decide
    · assumption

/-- Non-vacuity of C32. -/
example : SameName c!"Warn" c!"WARN" ∧ GetThresholdLvl c!"Warn" = 5 ∧ GetThresholdLvl c!"verbose" = 1 := by
  refine ⟨.cons (.same _) (.cons (.small 'A' rfl) (.cons (.small 'R' rfl) (.cons (.small 'N' rfl) .nil))), by decide, by decide⟩

end Log4g
