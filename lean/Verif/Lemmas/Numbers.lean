import Verif.Model.ConfigVals
import Verif.Spec.Numbers

namespace Log4g
open Spec Strconv

/-- `valueOf` continued from an accumulator. -/
def valueFrom (b : Nat) (acc : Nat) (ds : Str) : Nat := ds.foldl (fun a c => a * b + (c.toNat - 48)) acc

theorem valueOf_eq (b : Nat) (ds : Str) : valueOf b ds = valueFrom b 0 ds := rfl

theorem le_valueFrom (acc : Nat) (b : Nat) (hb : 1 ≤ b) (ds : Str) : acc ≤ valueFrom b acc ds := by
  induction ds generalizing acc with
  | nil => exact Nat.le_refl _
  | cons c ds ih =>
    have h := ih (acc * b + (c.toNat - 48))
    have : acc ≤ acc * b := Nat.le_mul_of_pos_right _ hb
    simp only [valueFrom, List.foldl_cons] at h ⊢
    omega

theorem digitVal_digit {c : Char} (h : IsDigit c) : digitVal c = some (c.toNat - 48) := by
  unfold IsDigit at h
  have e : '0'.toNat = 48 := rfl
  have e' : '9'.toNat = 57 := rfl
  simp only [digitVal, e, e']
  rw [if_pos h]

theorem digitVal_nondigit {c : Char} (h : ¬ IsDigit c) : digitVal c = none ∨ ∃ d, digitVal c = some d ∧ 10 ≤ d := by
  unfold IsDigit at h
  have e : '0'.toNat = 48 := rfl
  have e' : '9'.toNat = 57 := rfl
  simp only [digitVal, e, e', h, if_false]
  split
  · right; exact ⟨_, rfl, by omega⟩
  · split
    · right; exact ⟨_, rfl, by omega⟩
    · left; rfl

theorem parseLoop_digits (M acc : Nat) (ds rest : Str) (hd : ∀ c ∈ ds, IsDigit c) (hacc : acc ≤ M) :
    parseLoop false 10 M acc (ds ++ rest) =
      if valueFrom 10 acc ds ≤ M then parseLoop false 10 M (valueFrom 10 acc ds) rest
      else (M, some .range) := by
  induction ds generalizing acc with
  | nil => simp [valueFrom, hacc]
  | cons c ds ih =>
    have hc : IsDigit c := hd c (by simp)
    have hds : ∀ c ∈ ds, IsDigit c := fun x hx => hd x (by simp [hx])
    have hlt : ¬ (10 ≤ c.toNat - 48) := by unfold IsDigit at hc; omega
    simp only [List.cons_append, parseLoop, digitVal_digit hc, hlt, if_false, Bool.false_eq_true, false_and]
    have hv : valueFrom 10 acc (c :: ds) = valueFrom 10 (acc * 10 + (c.toNat - 48)) ds := rfl
    rw [hv]
    by_cases hM : M < acc * 10 + (c.toNat - 48)
    · have := le_valueFrom (acc * 10 + (c.toNat - 48)) 10 (by omega) ds
      rw [if_pos hM, if_neg (by omega)]
    · rw [if_neg hM, ih _ hds (by omega)]

theorem parseLoop_bad (M acc : Nat) (c : Char) (rest : Str) (h : ¬ IsDigit c) :
    parseLoop false 10 M acc (c :: rest) = (0, some .syntax) := by
  rcases digitVal_nondigit h with h | ⟨d, h, hd⟩
  · simp [parseLoop, h]
  · simp [parseLoop, h, hd]

/-- Splits a string after its leading digits. -/
theorem split_digits (s : Str) : ∃ ds rest, s = ds ++ rest ∧ (∀ c ∈ ds, IsDigit c) ∧
    (rest = [] ∨ ∃ c r, rest = c :: r ∧ ¬ IsDigit c) := by
  induction s with
  | nil => exact ⟨[], [], by simp⟩
  | cons c s ih =>
    by_cases h : IsDigit c
    · obtain ⟨ds, rest, h1, h2, h3⟩ := ih
      refine ⟨c :: ds, rest, by simp [h1], ?_, h3⟩
      intro x hx
      rcases List.mem_cons.mp hx with hx | hx
      · exact hx ▸ h
      · exact h2 x hx
    · exact ⟨[], c :: s, rfl, by simp, .inr ⟨c, s, rfl, h⟩⟩

/-- Full description of the unsigned parse. -/
theorem parseUint10_spec (s : Str) :
    (Digits s ∧ valueOf 10 s < 2 ^ 64 ∧ parseUint10 s = (valueOf 10 s, none)) ∨
    (Overlong [] s ∧ parseUint10 s = (2 ^ 64 - 1, some .range)) ∨
    (¬ Digits s ∧ ¬ Overlong [] s ∧ parseUint10 s = (0, some .syntax)) := by
  by_cases hs : s = []
  · subst hs
    right; right
    refine ⟨by simp [Digits], ?_, by simp [parseUint10]⟩
    rintro ⟨ds, rest, h, hd, _⟩
    simp at h
    exact hd.1 h.1
  obtain ⟨ds, rest, h1, h2, h3⟩ := split_digits s
  have hp : parseUint10 s = parseLoop false 10 (2 ^ 64 - 1) 0 s := by simp [parseUint10, hs]
  have hl := parseLoop_digits (2 ^ 64 - 1) 0 ds rest h2 (by omega)
  rw [hp]
  by_cases hv : valueFrom 10 0 ds ≤ 2 ^ 64 - 1
  · rw [if_pos hv] at hl
    rcases h3 with h3 | ⟨c, r, h3, hc⟩
    · left
      subst h3
      simp at h1; subst h1
      refine ⟨⟨hs, h2⟩, ?_, ?_⟩
      · rw [valueOf_eq]; omega
      · simp only [List.append_nil] at hl
        rw [hl]; rfl
    · right; right
      refine ⟨?_, ?_, ?_⟩
      · rintro ⟨_, h⟩
        exact hc (h c (by rw [h1, h3]; simp))
      · rintro ⟨es, rest', he, hes, hge⟩
        -- es is a prefix of the leading digits
        have : ∃ t, ds = es ++ t := by
          have hE : es ++ rest' = ds ++ rest := by rw [← h1, he]; simp
          rcases List.append_eq_append_iff.mp hE with ⟨a, ha1, _⟩ | ⟨a, ha1, ha2⟩
          · exact ⟨a, ha1⟩
          · cases a with
            | nil => exact ⟨[], by simpa using ha1.symm⟩
            | cons x a =>
              rw [h3] at ha2
              injection ha2 with hx _
              exact absurd (hes.2 x (by rw [ha1]; simp)) (hx ▸ hc)
        obtain ⟨t, ht⟩ := this
        have := le_valueFrom (valueFrom 10 0 es) 10 (by omega) t
        have h4 : valueFrom 10 0 ds = valueFrom 10 (valueFrom 10 0 es) t := by
          rw [ht]; simp [valueFrom, List.foldl_append]
        rw [valueOf_eq] at hge
        omega
      · rw [h1, hl, h3, parseLoop_bad _ _ _ _ hc]
  · right; left
    rw [if_neg hv] at hl
    refine ⟨⟨ds, rest, by simp [h1], ⟨?_, h2⟩, by rw [valueOf_eq]; omega⟩, by rw [h1, hl]⟩
    intro h; subst h; simp [valueFrom] at hv

theorem splitSign_cases (s : Str) :
    (∃ t, s = '-' :: t ∧ splitSign s = (true, t)) ∨ (∃ t, s = '+' :: t ∧ splitSign s = (false, t)) ∨
    ((∀ t, s ≠ '-' :: t) ∧ (∀ t, s ≠ '+' :: t) ∧ splitSign s = (false, s)) := by
  unfold splitSign
  split
  · left; exact ⟨_, rfl, rfl⟩
  · right; left; exact ⟨_, rfl, rfl⟩
  · rename_i h1 h2
    right; right; exact ⟨fun t h => h1 t h, fun t h => h2 t h, rfl⟩

theorem not_digit_minus : ¬ IsDigit '-' := by decide
theorem not_digit_plus : ¬ IsDigit '+' := by decide

theorem overlong_digit_head {s : Str} (h : Overlong [] s) : ∃ c t, s = c :: t ∧ IsDigit c := by
  obtain ⟨ds, rest, h1, h2, _⟩ := h
  obtain ⟨hne, hd⟩ := h2
  cases ds with
  | nil => exact absurd rfl hne
  | cons c ds => exact ⟨c, ds ++ rest, by simpa using h1, hd c (by simp)⟩

/-- What `strconv.Atoi` returns when its error result is ignored. -/
inductive AtoiVal : Str → Int → Prop
  | small {s n} : Decimal s n → -(2 ^ 63) ≤ n → n < 2 ^ 63 → AtoiVal s n
  | bigPos {s n} : Decimal s n → 2 ^ 63 ≤ n → AtoiVal s (2 ^ 63 - 1)
  | bigNeg {s n} : Decimal s n → n < -(2 ^ 63) → AtoiVal s (-(2 ^ 63))
  | overPos {s} : NotDecimal s → Overlong [] s ∨ Overlong ['+'] s → AtoiVal s (2 ^ 63 - 1)
  | overNeg {s} : NotDecimal s → Overlong ['-'] s → AtoiVal s (-(2 ^ 63))
  | junk {s} : NotDecimal s → ¬ Overlong [] s → ¬ Overlong ['+'] s → ¬ Overlong ['-'] s → AtoiVal s 0

theorem decimal_minus_inv {t : Str} {n : Int} (h : Decimal ('-' :: t) n) :
    Digits t ∧ n = -(valueOf 10 t : Int) := by
  cases h with
  | plain h => exact absurd (h.2 '-' (by simp)) not_digit_minus
  | minus h => exact ⟨h, rfl⟩

theorem decimal_plus_inv {t : Str} {n : Int} (h : Decimal ('+' :: t) n) :
    Digits t ∧ n = (valueOf 10 t : Int) := by
  cases h with
  | plain h => exact absurd (h.2 '+' (by simp)) not_digit_plus
  | plus h => exact ⟨h, rfl⟩

theorem overlong_cons_iff (c : Char) (t : Str) : Overlong [c] (c :: t) ↔ Overlong [] t := by
  constructor
  · rintro ⟨ds, rest, h, h2, h3⟩
    refine ⟨ds, rest, by simpa using h, h2, h3⟩
  · rintro ⟨ds, rest, h, h2, h3⟩
    exact ⟨ds, rest, by simpa using h, h2, h3⟩

theorem overlong_cons_ne {c d : Char} (t : Str) (h : c ≠ d) : ¬ Overlong [d] (c :: t) := by
  rintro ⟨ds, rest, h1, _⟩
  simp at h1; exact h h1.1

theorem overlong_digits_iff {t : Str} (h : Digits t) : Overlong [] t ↔ 2 ^ 64 ≤ valueOf 10 t := by
  constructor
  · rintro ⟨ds, rest, h1, h2, h3⟩
    have h4 : valueOf 10 t = valueFrom 10 (valueOf 10 ds) rest := by
      rw [h1]; simp [valueOf, valueFrom, List.foldl_append]
    have := le_valueFrom (valueOf 10 ds) 10 (by omega) rest
    omega
  · intro h2
    exact ⟨t, [], by simp, h, h2⟩

/-- `strconv.Atoi` computes exactly `AtoiVal`. -/
theorem atoi_val (s : Str) : AtoiVal s (atoi s).1 := by
  by_cases hs : s = []
  · subst hs
    have : (atoi []).1 = 0 := rfl
    rw [this]
    refine .junk ?_ ?_ ?_ ?_
    · intro n h; cases h with
      | plain h => exact h.1 rfl
    · rintro ⟨ds, r, h, h2, _⟩; simp at h; exact h2.1 h.1
    · rintro ⟨ds, r, h, h2, _⟩; simp at h
    · rintro ⟨ds, r, h, h2, _⟩; simp at h
  have hp := parseUint10_spec
  rcases splitSign_cases s with ⟨t, ht, hsp⟩ | ⟨t, ht, hsp⟩ | ⟨hm, hpl, hsp⟩
  · have e : atoi s = signed true (2 ^ 63) (parseUint10 t) := by simp [atoi, hs, hsp]
    rw [e]; subst ht
    rcases hp t with ⟨h1, h2, h3⟩ | ⟨h1, h3⟩ | ⟨h1, h2, h3⟩ <;> rw [h3]
    · by_cases hc : 2 ^ 63 < valueOf 10 t
      · have : (signed true (2 ^ 63) (valueOf 10 t, none)).1 = -(2 ^ 63) := by
          simp [signed]; split <;> simp <;> omega
        rw [this]; exact .bigNeg (.minus h1) (by omega)
      · have : (signed true (2 ^ 63) (valueOf 10 t, none)).1 = -(valueOf 10 t : Int) := by
          simp [signed]; split <;> simp <;> omega
        rw [this]; exact .small (.minus h1) (by omega) (by omega)
    · have : (signed true (2 ^ 63) (2 ^ 64 - 1, some .range)).1 = -(2 ^ 63) := by decide
      rw [this]
      by_cases hd : Digits t
      · have := (overlong_digits_iff hd).mp h1
        exact .bigNeg (.minus hd) (by omega)
      · refine .overNeg ?_ ((overlong_cons_iff _ _).mpr h1)
        intro n h; exact hd (decimal_minus_inv h).1
    · refine .junk ?_ ?_ ?_ ?_
      · intro n h; exact h1 (decimal_minus_inv h).1
      · intro h
        obtain ⟨c, t', h4, h5⟩ := overlong_digit_head h
        injection h4 with h4 _; exact absurd (h4 ▸ h5) not_digit_minus
      · exact overlong_cons_ne t (by decide)
      · intro h; exact h2 ((overlong_cons_iff _ _).mp h)
  · have e : atoi s = signed false (2 ^ 63) (parseUint10 t) := by simp [atoi, hs, hsp]
    rw [e]; subst ht
    rcases hp t with ⟨h1, h2, h3⟩ | ⟨h1, h3⟩ | ⟨h1, h2, h3⟩ <;> rw [h3]
    · by_cases hc : 2 ^ 63 ≤ valueOf 10 t
      · have : (signed false (2 ^ 63) (valueOf 10 t, none)).1 = 2 ^ 63 - 1 := by
          simp [signed]; split <;> simp <;> omega
        rw [this]; exact .bigPos (.plus h1) (by omega)
      · have : (signed false (2 ^ 63) (valueOf 10 t, none)).1 = (valueOf 10 t : Int) := by
          simp [signed]; split <;> simp <;> omega
        rw [this]; exact .small (.plus h1) (by omega) (by omega)
    · have : (signed false (2 ^ 63) (2 ^ 64 - 1, some .range)).1 = 2 ^ 63 - 1 := by decide
      rw [this]
      by_cases hd : Digits t
      · have := (overlong_digits_iff hd).mp h1
        exact .bigPos (.plus hd) (by omega)
      · refine .overPos ?_ (.inr ((overlong_cons_iff _ _).mpr h1))
        intro n h; exact hd (decimal_plus_inv h).1
    · refine .junk ?_ ?_ ?_ ?_
      · intro n h; exact h1 (decimal_plus_inv h).1
      · intro h
        obtain ⟨c, t', h4, h5⟩ := overlong_digit_head h
        injection h4 with h4 _; exact absurd (h4 ▸ h5) not_digit_plus
      · intro h; exact h2 ((overlong_cons_iff _ _).mp h)
      · exact overlong_cons_ne t (by decide)
  · have e : atoi s = signed false (2 ^ 63) (parseUint10 s) := by simp [atoi, hs, hsp]
    have hdec : ∀ n, Decimal s n → Digits s := by
      intro n h
      cases h with
      | plain h => exact h
      | plus h => exact absurd rfl (hpl _)
      | minus h => exact absurd rfl (hm _)
    rw [e]
    rcases hp s with ⟨h1, h2, h3⟩ | ⟨h1, h3⟩ | ⟨h1, h2, h3⟩ <;> rw [h3]
    · by_cases hc : 2 ^ 63 ≤ valueOf 10 s
      · have : (signed false (2 ^ 63) (valueOf 10 s, none)).1 = 2 ^ 63 - 1 := by
          simp [signed]; split <;> simp <;> omega
        rw [this]; exact .bigPos (.plain h1) (by omega)
      · have : (signed false (2 ^ 63) (valueOf 10 s, none)).1 = (valueOf 10 s : Int) := by
          simp [signed]; split <;> simp <;> omega
        rw [this]; exact .small (.plain h1) (by omega) (by omega)
    · have : (signed false (2 ^ 63) (2 ^ 64 - 1, some .range)).1 = 2 ^ 63 - 1 := by decide
      rw [this]
      by_cases hd : Digits s
      · have := (overlong_digits_iff hd).mp h1
        exact .bigPos (.plain hd) (by omega)
      · refine .overPos (fun n h => hd (hdec n h)) (.inl h1)
    · refine .junk (fun n h => h1 (hdec n h)) h2 ?_ ?_
      · rintro ⟨ds, r, h, _⟩; exact hpl (ds ++ r) (by simpa using h)
      · rintro ⟨ds, r, h, _⟩; exact hm (ds ++ r) (by simpa using h)

/-- The error result of `strconv.Atoi`: none exactly for numerals that fit. -/
theorem atoi_ok_iff (s : Str) : (atoi s).2 = none ↔ ∃ n, Decimal s n ∧ -(2 ^ 63) ≤ n ∧ n < 2 ^ 63 := by
  by_cases hs : s = []
  · subst hs
    constructor
    · intro h; simp [atoi] at h
    · rintro ⟨n, h, _⟩; cases h with
      | plain h => exact absurd rfl h.1
  have hp := parseUint10_spec
  rcases splitSign_cases s with ⟨t, ht, hsp⟩ | ⟨t, ht, hsp⟩ | ⟨hm, hpl, hsp⟩
  · have e : atoi s = signed true (2 ^ 63) (parseUint10 t) := by simp [atoi, hs, hsp]
    rw [e]; subst ht
    rcases hp t with ⟨h1, h2, h3⟩ | ⟨h1, h3⟩ | ⟨h1, h2, h3⟩ <;> rw [h3]
    · constructor
      · intro h
        refine ⟨_, .minus h1, ?_, by omega⟩
        by_cases hc : 2 ^ 63 < valueOf 10 t
        · simp [signed, hc] at h
        · omega
      · rintro ⟨n, hd, hn, hn'⟩
        have := (decimal_minus_inv hd).2
        have hc : ¬ (2 ^ 63 < valueOf 10 t) := by omega
        simp [signed, hc]
    · constructor
      · intro h; simp [signed] at h
      · rintro ⟨n, hd, hn, hn'⟩
        obtain ⟨a, b⟩ := decimal_minus_inv hd
        have := (overlong_digits_iff a).mp h1
        omega
    · constructor
      · intro h; simp [signed] at h
      · rintro ⟨n, hd, hn, hn'⟩; exact absurd (decimal_minus_inv hd).1 h1
  · have e : atoi s = signed false (2 ^ 63) (parseUint10 t) := by simp [atoi, hs, hsp]
    rw [e]; subst ht
    rcases hp t with ⟨h1, h2, h3⟩ | ⟨h1, h3⟩ | ⟨h1, h2, h3⟩ <;> rw [h3]
    · constructor
      · intro h
        refine ⟨_, .plus h1, by omega, ?_⟩
        by_cases hc : 2 ^ 63 ≤ valueOf 10 t
        · simp [signed, hc] at h
        · omega
      · rintro ⟨n, hd, hn, hn'⟩
        have := (decimal_plus_inv hd).2
        have hc : ¬ (2 ^ 63 ≤ valueOf 10 t) := by omega
        simp [signed, hc]
    · constructor
      · intro h; simp [signed] at h
      · rintro ⟨n, hd, hn, hn'⟩
        obtain ⟨a, b⟩ := decimal_plus_inv hd
        have := (overlong_digits_iff a).mp h1
        omega
    · constructor
      · intro h; simp [signed] at h
      · rintro ⟨n, hd, hn, hn'⟩; exact absurd (decimal_plus_inv hd).1 h1
  · have e : atoi s = signed false (2 ^ 63) (parseUint10 s) := by simp [atoi, hs, hsp]
    have hdec : ∀ n, Decimal s n → Digits s ∧ n = valueOf 10 s := by
      intro n h
      cases h with
      | plain h => exact ⟨h, rfl⟩
      | plus h => exact absurd rfl (hpl _)
      | minus h => exact absurd rfl (hm _)
    rw [e]
    rcases hp s with ⟨h1, h2, h3⟩ | ⟨h1, h3⟩ | ⟨h1, h2, h3⟩ <;> rw [h3]
    · constructor
      · intro h
        refine ⟨_, .plain h1, by omega, ?_⟩
        by_cases hc : 2 ^ 63 ≤ valueOf 10 s
        · simp [signed, hc] at h
        · omega
      · rintro ⟨n, hd, hn, hn'⟩
        have := (hdec n hd).2
        have hc : ¬ (2 ^ 63 ≤ valueOf 10 s) := by omega
        simp [signed, hc]
    · constructor
      · intro h; simp [signed] at h
      · rintro ⟨n, hd, hn, hn'⟩
        obtain ⟨a, b⟩ := hdec n hd
        have := (overlong_digits_iff a).mp h1
        omega
    · constructor
      · intro h; simp [signed] at h
      · rintro ⟨n, hd, hn, hn'⟩; exact absurd (hdec n hd).1 h1

/-- A decimal numeral has one value. -/
theorem decimal_unique {s : Str} {n m : Int} (h : Decimal s n) (h' : Decimal s m) : n = m := by
  cases h with
  | plain h =>
    cases h' with
    | plain h' => rfl
    | plus h' => exact absurd (h.2 '+' (by simp)) not_digit_plus
    | minus h' => exact absurd (h.2 '-' (by simp)) not_digit_minus
  | plus h => exact ((decimal_plus_inv h').2).symm
  | minus h => exact ((decimal_minus_inv h').2).symm

end Log4g
